import Verif.Model.Monad

/-!
# What it means to cut a run short

Specification for runs with limits, interrupts or a logger, compared to runs without.
-/

namespace Scuttle.Spec

/-- The points of the first front are the first ones of the second; only the last of them may have fewer solutions. -/
inductive FrontPrefix {S : Type} : ParetoFront S → ParetoFront S → Prop
  | nil (g : ParetoFront S) : FrontPrefix [] g
  | last (p q : NonDomPoint S) (g : ParetoFront S) : p.costs = q.costs → p.sols <+: q.sols → FrontPrefix [p] (q :: g)
  | cons (p : NonDomPoint S) (f g : ParetoFront S) : FrontPrefix f g → FrontPrefix (p :: f) (p :: g)

/-- The messages of the first log are the first ones of the second. Only the last of them, if it is about a non-dominated
point, may come earlier and with fewer solutions. -/
inductive LogPrefix : List LogEvent → List LogEvent → Prop
  | first (l rest : List LogEvent) : LogPrefix l (l ++ rest)
  | last (pre mid rest : List LogEvent) (p q : NonDomPoint Assignment) : (∀ r, .nonDominated r ∉ mid) → p.costs = q.costs →
      p.sols <+: q.sols → LogPrefix (pre ++ [.nonDominated p]) (pre ++ mid ++ .nonDominated q :: rest)

/-- The messages of the first log are the first ones of the second, but the last one about a non-dominated point was lost. -/
inductive LogLost : List LogEvent → List LogEvent → Prop
  | lost (pre rest : List LogEvent) (p : NonDomPoint Assignment) :
      LogLost (pre ++ [.routineEnd]) (pre ++ .nonDominated p :: .routineEnd :: rest)

/-- Two environments with the same solver. In the second one there are no interrupts and no failures of the logger. In the
first one the answer can be `interrupted` as well, once the flag is set. If `timeless` holds, then answers do not depend
on the time. -/
structure SameSolver (timeless : Prop) (env calm : Env) : Prop where
  debug : env.debug = calm.debug
  tighten : env.tighten = calm.tighten
  oracle : ∀ t t', t = t' ∨ timeless → ∀ lim db as, env.oracle t lim db as = calm.oracle t' lim db as ∨
    env.oracle t lim db as = .interrupted ∧ ∀ u, t < u → env.flag u = true
  flip : ∀ t t', t = t' ∨ timeless → ∀ db frozen m l, env.flip t db frozen m l = calm.flip t' db frozen m l
  flag : ∀ t, calm.flag t = false
  logOk : ∀ t, calm.logOk t = true

end Scuttle.Spec

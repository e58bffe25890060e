import Verif.Model.Kernel

/-!
# Weakest preconditions for computations of the solver
-/

namespace Scuttle

variable {P C α β : Type}

/-- If `c` is run from `s`, then `Q` holds for the returned value and state, or `E` for the way it stopped. -/
def wp (env : Env) (c : M P C α) (Q : α → Slv P C → Prop) (E : Stop → Slv P C → Prop) (s : Slv P C) : Prop :=
  match c env s with
  | (.ok a, s') => Q a s'
  | (.error e, s') => E e s'

variable {env : Env} {Q : α → Slv P C → Prop} {E : Stop → Slv P C → Prop} {s : Slv P C}

theorem wp_mono {Q' : α → Slv P C → Prop} {E' : Stop → Slv P C → Prop} {c : M P C α}
    (h : wp env c Q E s) (hQ : ∀ a s', Q a s' → Q' a s') (hE : ∀ e s', E e s' → E' e s') : wp env c Q' E' s := by
  unfold wp at *
  split at h
  · exact hQ _ _ h
  · exact hE _ _ h

@[simp] theorem wp_pure (a : α) : wp env (M.pure a : M P C α) Q E s ↔ Q a s := Iff.rfl

@[simp] theorem wp_pure' (a : α) : wp env (pure a : M P C α) Q E s ↔ Q a s := Iff.rfl

theorem wp_bind_iff {Q : β → Slv P C → Prop} (c : M P C α) (f : α → M P C β) :
    wp env (M.bind c f) Q E s ↔ wp env c (fun a s' => wp env (f a) Q E s') E s := by
  unfold wp M.bind
  cases h : c env s with
  | mk r s' => cases r <;> simp

@[simp] theorem wp_bind {Q : β → Slv P C → Prop} (c : M P C α) (f : α → M P C β) :
    wp env (c >>= f) Q E s ↔ wp env c (fun a s' => wp env (f a) Q E s') E s := wp_bind_iff c f

@[simp] theorem wp_getS {Q : Slv P C → Slv P C → Prop} : wp env getS Q E s ↔ Q s s := Iff.rfl

@[simp] theorem wp_isDebug {Q : Bool → Slv P C → Prop} : wp env isDebug Q E s ↔ Q env.debug s := Iff.rfl

@[simp] theorem wp_modifyS {Q : Unit → Slv P C → Prop} (f : Slv P C → Slv P C) :
    wp env (modifyS f) Q E s ↔ Q () (f s) := Iff.rfl

@[simp] theorem wp_stop (e : Stop) : wp env (stop e : M P C α) Q E s ↔ E e s := Iff.rfl

theorem wp_dbg {Q : Unit → Slv P C → Prop} {b : Bool} (hb : b = true) (h : Q () s) : wp env (dbg b) Q E s := by
  unfold wp dbg; simpa [hb] using h

theorem wp_dbg_iff {Q : Unit → Slv P C → Prop} {b : Bool} :
    wp env (dbg b) Q E s ↔ if env.debug && !b then E .panic s else Q () s := by
  unfold wp dbg
  cases env.debug && !b <;> simp

@[simp] theorem wp_unwrap_some (a : α) : wp env (unwrap (some a)) Q E s ↔ Q a s := Iff.rfl

@[simp] theorem wp_unwrap_none : wp env (unwrap (none : Option α)) Q E s ↔ E .panic s := Iff.rfl

@[simp] theorem wp_orErr_some (a : α) : wp env (orErr (some a)) Q E s ↔ Q a s := Iff.rfl

@[simp] theorem wp_orErr_none : wp env (orErr (none : Option α)) Q E s ↔ E .error s := Iff.rfl

@[simp] theorem wp_ofExcept_ok (a : α) : wp env (ofExcept (.ok a)) Q E s ↔ Q a s := Iff.rfl

@[simp] theorem wp_ofExcept_error (e : Stop) : wp env (ofExcept (.error e : Except Stop α)) Q E s ↔ E e s := Iff.rfl

theorem wp_attempt {Q : Except Stop α → Slv P C → Prop} {c : M P C α}
    (h : wp env c (fun a s' => Q (.ok a) s')
      (fun e s' => match e with
        | .panic => E .panic s'
        | .fuel => E .fuel s'
        | e => Q (.error e) s') s) : wp env (attempt c) Q E s := by
  unfold wp attempt at *
  revert h
  cases hc : c env s with
  | mk r s' =>
    cases r with
    | ok a => simp
    | error e => cases e <;> simp

/-- What the body of a loop must establish: the invariant with a smaller measure, or the postcondition. -/
def LoopPost (I : α → Slv P C → Prop) (μ : α → Slv P C → Nat) (Q : β → Slv P C → Prop) (m : Nat) (r : α ⊕ β)
    (s : Slv P C) : Prop :=
  match r with
  | .inl a => I a s ∧ μ a s < m
  | .inr b => Q b s

/-- Rule for loops: `I` is an invariant with a measure that is at most `N` and decreases; running out of fuel is only
possible with `fuel ≤ N`. -/
theorem wp_loop {Q : β → Slv P C → Prop} (I : α → Slv P C → Prop) (μ : α → Slv P C → Nat) (N fuel : Nat)
    (body : α → M P C (α ⊕ β)) (a : α)
    (hμ : ∀ a s, I a s → μ a s ≤ N)
    (hbody : ∀ a s, I a s → wp env (body a) (LoopPost I μ Q (μ a s)) E s)
    (hfuel : ∀ a s, I a s → fuel ≤ N → E .fuel s)
    (h : I a s) : wp env (loopM body fuel a) Q E s := by
  have key : ∀ n a s, I a s → fuel ≤ n + (N - μ a s) → wp env (loopM body n a) Q E s := by
    intro n
    induction n with
    | zero =>
      intro a s hI hn
      exact hfuel a s hI (by omega)
    | succ n ih =>
      intro a s hI hn
      unfold loopM
      rw [wp_bind_iff]
      refine wp_mono (hbody a s hI) ?_ (fun _ _ h => h)
      intro r s' hr
      cases r with
      | inl a' =>
        simp only [LoopPost] at hr ⊢
        have := hμ a s hI
        exact ih a' s' hr.1 (by omega)
      | inr b => exact hr
  exact key fuel a s h (by omega)

/-- Rule for loops without measure. -/
theorem wp_loop_inv {Q : β → Slv P C → Prop} (I : α → Slv P C → Prop) (fuel : Nat)
    (body : α → M P C (α ⊕ β)) (a : α)
    (hbody : ∀ a s, I a s → wp env (body a) (fun r s' => match r with
      | .inl a' => I a' s'
      | .inr b => Q b s') E s)
    (hfuel : ∀ a s, I a s → E .fuel s)
    (h : I a s) : wp env (loopM body fuel a) Q E s := by
  induction fuel generalizing a s with
  | zero => exact hfuel a s h
  | succ n ih =>
    unfold loopM
    rw [wp_bind_iff]
    refine wp_mono (hbody a s h) ?_ (fun _ _ h => h)
    intro r s' hr
    cases r with
    | inl a' => exact ih a' hr
    | inr b => exact hr

end Scuttle

import Verif.SpecCut
import Verif.Model.Alg
import Verif.Proof.WP
import Verif.Model.CoreBoost

/-!
# Comparing a run with one that is not cut short
-/

set_option linter.unusedSectionVars false

namespace Scuttle

open Spec (FrontPrefix LogPrefix LogLost SameSolver)

variable {P C α β : Type} {T : Prop}

/-! ## Prefixes of fronts -/

theorem frontPrefix_refl {S : Type} : ∀ f : ParetoFront S, FrontPrefix f f
  | [] => .nil _
  | p :: f => .cons p f f (frontPrefix_refl f)

theorem frontPrefix_of_prefix {S : Type} {f g : ParetoFront S} (h : f <+: g) : FrontPrefix f g := by
  obtain ⟨t, rfl⟩ := h
  induction f with
  | nil => exact .nil _
  | cons p f ih => exact .cons p f _ ih

theorem FrontPrefix.append {S : Type} {f g : ParetoFront S} (h : FrontPrefix f g) (t : ParetoFront S) :
    FrontPrefix f (g ++ t) := by
  induction h with
  | nil g => exact .nil _
  | last p q g h1 h2 => exact .last p q _ h1 h2
  | cons p f g _ ih => exact .cons p f _ ih

theorem FrontPrefix.trans_prefix {S : Type} {f g h : ParetoFront S} (h1 : FrontPrefix f g) (h2 : g <+: h) : FrontPrefix f h := by
  obtain ⟨t, rfl⟩ := h2
  exact FrontPrefix.append h1 t

theorem frontPrefix_last {S : Type} (f : ParetoFront S) {p q : NonDomPoint S} (g : ParetoFront S) (h1 : p.costs = q.costs)
    (h2 : p.sols <+: q.sols) : FrontPrefix (f ++ [p]) (f ++ q :: g) := by
  induction f with
  | nil => exact .last p q g h1 h2
  | cons x f ih => exact .cons x _ _ ih

/-! ## Prefixes of logs -/

/-- Messages have been added. -/
def LogGrows (l l' : Option (List LogEvent)) : Prop := ∃ t, l' = l.map (· ++ t)

theorem logGrows_refl (l : Option (List LogEvent)) : LogGrows l l := ⟨[], by cases l <;> simp⟩

theorem LogGrows.trans {a b c : Option (List LogEvent)} (h : LogGrows a b) (h' : LogGrows b c) : LogGrows a c := by
  obtain ⟨t, rfl⟩ := h
  obtain ⟨u, rfl⟩ := h'
  exact ⟨t ++ u, by cases a <;> simp⟩

/-- `LogPrefix` if there are logs, or `LogLost` if the logger may fail. -/
def LogBefore (L : Prop) (l l' : Option (List LogEvent)) : Prop :=
  ∀ m, l = some m → ∃ m', l' = some m' ∧ (LogPrefix m m' ∨ ¬L ∧ LogLost m m')

theorem LogGrows.before {L : Prop} {l l' : Option (List LogEvent)} (h : LogGrows l l') : LogBefore L l l' := by
  obtain ⟨t, rfl⟩ := h
  rintro m rfl
  exact ⟨m ++ t, rfl, .inl (.first m t)⟩

theorem LogBefore.trans_grows {L : Prop} {a b c : Option (List LogEvent)} (h : LogBefore L a b) (h' : LogGrows b c) :
    LogBefore L a c := by
  obtain ⟨t, rfl⟩ := h'
  intro m hm
  obtain ⟨m', rfl, h'⟩ := h m hm
  refine ⟨m' ++ t, rfl, ?_⟩
  rcases h' with h' | ⟨hL, h'⟩
  · left
    cases h' with
    | first _ u => rw [List.append_assoc]; exact .first _ _
    | last pre mid rest p q h1 h2 h3 =>
      rw [List.append_assoc, List.cons_append]
      exact .last pre mid (rest ++ t) p q h1 h2 h3
  · cases h' with
    | lost pre rest p =>
      rw [List.append_assoc, List.cons_append, List.cons_append]
      exact .inr ⟨hL, .lost pre (rest ++ t) p⟩

/-- A computation that only adds to the log. -/
def LG (c : M P C α) : Prop := ∀ env s, LogGrows s.io.logger (c env s).2.io.logger

theorem lg_of_eq {c : M P C α} (h : ∀ env s, (c env s).2.io.logger = s.io.logger) : LG c := fun env s => by
  rw [h env s]; exact logGrows_refl _

theorem lg_bind {c : M P C α} {f : α → M P C β} (hc : LG c) (hf : ∀ a, LG (f a)) : LG (c >>= f) := by
  intro env s
  change LogGrows _ (M.bind c f env s).2.io.logger
  have h1 := hc env s
  unfold M.bind
  rcases hr : c env s with ⟨_ | a, s'⟩
  · rw [hr] at h1; exact h1
  · rw [hr] at h1; exact h1.trans (hf a env s')

/-! ## The relation -/

/-- The states of the two runs agree in all but logger, limits and time; the second has no limits. -/
structure SameState (T : Prop) (s₁ s₂ : Slv P C) : Prop where
  k : s₁.k = s₂.k
  encs : s₁.encs = s₂.encs
  front : s₁.front = s₂.front
  fence : s₁.fence = s₂.fence
  stats : s₁.io.stats = s₂.io.stats
  lims : s₂.io.lims = Limits.none
  time : T ∨ s₁.io.tick = s₂.io.tick ∧ s₁.io.logger = s₂.io.logger

theorem SameState.refl {s : Slv P C} (h : s.io.lims = Limits.none) : SameState T s s :=
  ⟨rfl, rfl, rfl, rfl, rfl, h, .inr ⟨rfl, rfl⟩⟩

/-- The logger never fails. -/
def LogFine (env : Env) : Prop := ∀ t, env.logOk t = true

/-- What is compared if the first computation stops. -/
def Cut (T L : Prop) (s₁ s₂ : Slv P C) : Prop :=
  FrontPrefix s₁.front s₂.front ∧ (T ∨ LogBefore L s₁.io.logger s₂.io.logger)

/-- What is compared at the end of a computation; `L` says that the logger works. -/
def Outcome (T L : Prop) (x y : Except Stop α × Slv P C) : Prop :=
  match x.1 with
  | .ok a => y.1 = .ok a ∧ SameState T x.2 y.2
  | .error _ => ∀ b, y.1 = .ok b → Cut T L x.2 y.2

/-- Nothing has happened since the states agreed. -/
theorem SameState.cut {L : Prop} {s₁ s₂ t₁ t₂ : Slv P C} (S : SameState T s₁ s₂) (h1 : t₁.front = s₁.front)
    (h2 : t₁.io.logger = s₁.io.logger) (h3 : s₂.front <+: t₂.front) (h4 : LogGrows s₂.io.logger t₂.io.logger) :
    Cut T L t₁ t₂ := by
  refine ⟨?_, S.time.imp_right fun h => ?_⟩
  · rw [h1, S.front]; exact frontPrefix_of_prefix h3
  · rw [h2, h.2]; exact h4.before

theorem SameState.cut_eq {L : Prop} {s₁ s₂ t₁ t₂ : Slv P C} (S : SameState T s₁ s₂) (h1 : t₁.front = s₁.front)
    (h2 : t₁.io.logger = s₁.io.logger) (h3 : t₂.front = s₂.front) (h4 : t₂.io.logger = s₂.io.logger) :
    Cut T L t₁ t₂ :=
  S.cut h1 h2 (by rw [h3]; exact List.prefix_refl _) (by rw [h4]; exact logGrows_refl _)

theorem Cut.trans {L : Prop} {s₁ s₂ s₃ : Slv P C} (h : Cut T L s₁ s₂) (h1 : s₂.front <+: s₃.front)
    (h2 : LogGrows s₂.io.logger s₃.io.logger) : Cut T L s₁ s₃ :=
  ⟨FrontPrefix.trans_prefix h.1 h1, h.2.imp_right fun h => h.trans_grows h2⟩

/-- The second computation does the same as the first, unless the first stops early. -/
structure Rel (T : Prop) (c₁ c₂ : M P C α) : Prop where
  run : ∀ env calm, SameSolver T env calm → ∀ s₁ s₂, SameState T s₁ s₂ → Outcome T (LogFine env) (c₁ env s₁) (c₂ calm s₂)
  grows : ∀ env s a, s.io.lims = Limits.none → (c₂ env s).1 = .ok a →
    s.front <+: (c₂ env s).2.front ∧ (c₂ env s).2.io.lims = Limits.none
  ends : ∀ env s t, (∀ u, env.flag u = false) → s.io.lims = Limits.none → (c₂ env s).1 ≠ .error (.terminated t)
  logs : LG c₂

theorem rel_pure (a : α) : Rel (P := P) (C := C) T (M.pure a) (M.pure a) :=
  ⟨fun _ _ _ _ _ h => ⟨rfl, h⟩, fun _ _ _ h _ => ⟨List.prefix_refl _, h⟩, fun _ _ _ _ _ h => (by cases h), lg_of_eq fun _ _ => rfl⟩

theorem rel_stop (e : Stop) (he : ∀ t, e ≠ .terminated t := by simp) :
    Rel (P := P) (C := C) (α := α) T (stop e) (stop e) :=
  ⟨fun _ _ _ _ _ _ _ h => (by cases h), fun _ _ _ h _ => ⟨List.prefix_refl _, h⟩, fun _ _ t _ _ h => he t (by cases h; rfl),
    lg_of_eq fun _ _ => rfl⟩

theorem grows_bind {c₂ : M P C α} {f₂ : α → M P C β} {env : Env} {s : Slv P C}
    (hc : ∀ a, (c₂ env s).1 = .ok a → s.front <+: (c₂ env s).2.front ∧ (c₂ env s).2.io.lims = Limits.none)
    (hf : ∀ a s b, s.io.lims = Limits.none → (f₂ a env s).1 = .ok b →
      s.front <+: (f₂ a env s).2.front ∧ (f₂ a env s).2.io.lims = Limits.none) {b : β} (hb : ((c₂ >>= f₂) env s).1 = .ok b) :
    s.front <+: ((c₂ >>= f₂) env s).2.front ∧ ((c₂ >>= f₂) env s).2.io.lims = Limits.none := by
  change (M.bind c₂ f₂ env s).1 = _ at hb
  change _ <+: (M.bind c₂ f₂ env s).2.front ∧ (M.bind c₂ f₂ env s).2.io.lims = _
  unfold M.bind at hb ⊢
  rcases hr : c₂ env s with ⟨_ | a, s'⟩
  · rw [hr] at hb; cases hb
  · rw [hr] at hc hb
    have hg := hc a rfl
    have hg' := hf a s' b hg.2 hb
    exact ⟨hg.1.trans hg'.1, hg'.2⟩

theorem outcome_bind {c₁ c₂ : M P C α} {f₁ f₂ : α → M P C β} {env calm : Env} {s₁ s₂ : Slv P C} (E : SameSolver T env calm)
    {L : Prop} (hL : L = LogFine env)
    (h : Outcome T L (c₁ env s₁) (c₂ calm s₂))
    (hg : ∀ a, (c₂ calm s₂).1 = .ok a → (c₂ calm s₂).2.io.lims = Limits.none) (hf : ∀ a, Rel T (f₁ a) (f₂ a)) :
    Outcome T L ((c₁ >>= f₁) env s₁) ((c₂ >>= f₂) calm s₂) := by
  subst hL
  change Outcome T _ (M.bind c₁ f₁ env s₁) (M.bind c₂ f₂ calm s₂)
  unfold M.bind
  rcases h1 : c₁ env s₁ with ⟨e | a, s₁'⟩
  · rw [h1] at h
    rcases h2 : c₂ calm s₂ with ⟨e' | a', s₂'⟩
    · exact fun b hb => by cases hb
    · rw [h2] at h hg
      intro b hb
      exact Cut.trans (h a' rfl) ((hf a').grows calm s₂' b (hg a' rfl) hb).1 ((hf a').logs calm s₂')
  · rw [h1] at h
    rcases h2 : c₂ calm s₂ with ⟨e' | a', s₂'⟩
    · rw [h2] at h; cases h.1
    · rw [h2] at h
      obtain ⟨h3, h4⟩ := h
      cases h3
      exact (hf a).run env calm E s₁' s₂' h4

theorem ends_bind {c₂ : M P C α} {f₂ : α → M P C β} {env : Env} {s : Slv P C} {t : Termination}
    (hg : ∀ a, (c₂ env s).1 = .ok a → (c₂ env s).2.io.lims = Limits.none) (hc : (c₂ env s).1 ≠ .error (.terminated t))
    (hf : ∀ a s', s'.io.lims = Limits.none → (f₂ a env s').1 ≠ .error (.terminated t)) :
    ((c₂ >>= f₂) env s).1 ≠ .error (.terminated t) := by
  change (M.bind c₂ f₂ env s).1 ≠ _
  unfold M.bind
  rcases hr : c₂ env s with ⟨e | a, s'⟩
  · rw [hr] at hc
    intro h
    exact hc (by cases h; rfl)
  · rw [hr] at hg
    exact hf a s' (hg a rfl)

theorem rel_bind {c₁ c₂ : M P C α} {f₁ f₂ : α → M P C β} (hc : Rel T c₁ c₂) (hf : ∀ a, Rel T (f₁ a) (f₂ a)) :
    Rel T (c₁ >>= f₁) (c₂ >>= f₂) :=
  ⟨fun env calm E s₁ s₂ S => outcome_bind E rfl (hc.run env calm E s₁ s₂ S) (fun a h => (hc.grows calm s₂ a S.lims h).2) hf,
    fun env s _ hs hb => grows_bind (fun a => hc.grows env s a hs) (fun a s b => (hf a).grows env s b) hb,
    fun env s t hfl hs => ends_bind (fun a h => (hc.grows env s a hs h).2) (hc.ends env s t hfl hs)
      fun a s' hs' => (hf a).ends env s' t hfl hs', lg_bind hc.logs fun a => (hf a).logs⟩

theorem rel_getS {f₁ f₂ : Slv P C → M P C α} (h : ∀ k io₁ io₂ encs front fence, io₁.stats = io₂.stats →
    Rel T (f₁ ⟨k, io₁, encs, front, fence⟩) (f₂ ⟨k, io₂, encs, front, fence⟩)) : Rel T (getS >>= f₁) (getS >>= f₂) := by
  refine ⟨fun env calm E s₁ s₂ S => ?_, fun env s a hs ha => ?_, fun env s t hfl hs => ?_, fun env s => ?_⟩
  · obtain ⟨k, io₁, encs, front, fence⟩ := s₁
    obtain ⟨k', io₂, encs', front', fence'⟩ := s₂
    obtain ⟨h0, h1, h2, h3, h4, h5, h6⟩ := S
    cases h0; cases h1; cases h2; cases h3
    exact (h k io₁ io₂ encs front fence h4).run env calm E _ _ ⟨rfl, rfl, rfl, rfl, h4, h5, h6⟩
  · obtain ⟨k, io, encs, front, fence⟩ := s
    exact (h k io io encs front fence rfl).grows env _ a hs ha
  · obtain ⟨k, io, encs, front, fence⟩ := s
    exact (h k io io encs front fence rfl).ends env _ t hfl hs
  · obtain ⟨k, io, encs, front, fence⟩ := s
    exact (h k io io encs front fence rfl).logs env _

theorem rel_ite {c : Prop} [Decidable c] {a₁ a₂ b₁ b₂ : M P C α} (h1 : c → Rel T a₁ a₂) (h2 : ¬c → Rel T b₁ b₂) :
    Rel T (if c then a₁ else b₁) (if c then a₂ else b₂) := by
  split
  · exact h1 ‹_›
  · exact h2 ‹_›

theorem rel_isDebug : Rel (P := P) (C := C) T isDebug isDebug :=
  ⟨fun _ _ E _ _ S => ⟨congrArg Except.ok E.debug.symm, S⟩, fun _ _ _ h _ => ⟨List.prefix_refl _, h⟩, fun _ _ _ _ _ h => (by cases h), lg_of_eq fun _ _ => rfl⟩

theorem rel_hasTightening : Rel (P := P) (C := C) T hasTightening hasTightening :=
  ⟨fun _ _ E _ _ S => ⟨congrArg Except.ok E.tighten.symm, S⟩, fun _ _ _ h _ => ⟨List.prefix_refl _, h⟩, fun _ _ _ _ _ h => (by cases h), lg_of_eq fun _ _ => rfl⟩

theorem rel_modifyS {g₁ g₂ : Slv P C → Slv P C} (h : ∀ s₁ s₂, SameState T s₁ s₂ → SameState T (g₁ s₁) (g₂ s₂))
    (hg : ∀ s, s.io.lims = Limits.none → s.front <+: (g₂ s).front ∧ (g₂ s).io.lims = Limits.none)
    (hl : ∀ s, (g₂ s).io.logger = s.io.logger := by exact fun _ => rfl) :
    Rel T (modifyS g₁) (modifyS g₂) :=
  ⟨fun _ _ _ s₁ s₂ S => ⟨rfl, h s₁ s₂ S⟩, fun _ s _ hs _ => hg s hs, fun _ _ _ _ _ h => (by cases h), lg_of_eq fun _ s => hl s⟩

theorem rel_dbg (b : Bool) : Rel (P := P) (C := C) T (dbg b) (dbg b) := by
  refine ⟨fun env calm E s₁ s₂ S => ?_, fun env s _ hs _ => ?_, fun env s t _ _ => ?_, lg_of_eq fun env s => ?_⟩
  · unfold dbg
    rw [E.debug]
    split
    · exact fun b h => by cases h
    · exact ⟨rfl, S⟩
  · unfold dbg
    split <;> exact ⟨List.prefix_refl _, hs⟩
  · unfold dbg
    split <;> simp
  · unfold dbg
    split <;> rfl

theorem rel_unwrap (o : Option α) : Rel (P := P) (C := C) T (unwrap o) (unwrap o) := by
  cases o
  · exact rel_stop _
  · exact rel_pure _

theorem rel_orErr (o : Option α) : Rel (P := P) (C := C) T (orErr o) (orErr o) := by
  cases o
  · exact rel_stop _
  · exact rel_pure _

theorem rel_loop {b₁ b₂ : α → M P C (α ⊕ β)} (h : ∀ a, Rel T (b₁ a) (b₂ a)) : ∀ {n₁ n₂ : Nat}, n₁ ≤ n₂ → ∀ a,
    Rel T (loopM b₁ n₁ a) (loopM b₂ n₂ a) := by
  intro n₁ n₂ hn
  induction n₂ generalizing n₁ with
  | zero =>
    intro a
    obtain rfl : n₁ = 0 := by omega
    exact rel_stop _
  | succ n₂ ih =>
    intro a
    cases n₁ with
    | zero =>
      have hg := rel_bind (h a) fun r => (match r with
        | .inl a' => ih (Nat.zero_le n₂) a'
        | .inr b => rel_pure b : Rel T (match r with | .inl a' => loopM b₁ 0 a' | .inr b => M.pure b)
            (match r with | .inl a' => loopM b₂ n₂ a' | .inr b => M.pure b))
      exact ⟨fun env calm E s₁ s₂ S b hb => S.cut rfl rfl (hg.grows calm s₂ b S.lims hb).1 (hg.logs calm s₂), hg.grows, hg.ends,
        hg.logs⟩
    | succ n₁ =>
      exact rel_bind (h a) fun r => (match r with
        | .inl a' => ih (by omega) a'
        | .inr b => rel_pure b : Rel T (match r with | .inl a' => loopM b₁ n₁ a' | .inr b => M.pure b)
            (match r with | .inl a' => loopM b₂ n₂ a' | .inr b => M.pure b))

/-! ## Logging, limits and the oracle -/

theorem lg_logEvent (e : LogEvent) : LG (P := P) (C := C) (logEvent e) := by
  intro env s
  unfold logEvent
  split
  · exact logGrows_refl _
  · rename_i l hl
    split
    · exact ⟨[e], by rw [hl]; rfl⟩
    · exact logGrows_refl _

theorem rel_logEvent (e : LogEvent) : Rel (P := P) (C := C) T (logEvent e) (logEvent e) := by
  refine ⟨fun env calm E s₁ s₂ S => ?_, fun env s _ hs _ => ?_, fun env s t _ _ => ?_, lg_logEvent e⟩
  · have hlg := lg_logEvent e calm s₂
    have S' := S
    unfold logEvent at hlg ⊢
    obtain ⟨h1, h2, h3, h4, h5, h6, h7⟩ := S
    rcases l1 : s₁.io.logger with _ | l
    · rcases l2 : s₂.io.logger with _ | l'
      · exact ⟨rfl, h1, h2, h3, h4, h5, h6, h7⟩
      · simp only [E.logOk, if_true]
        refine ⟨rfl, h1, h2, h3, h4, h5, h6, ?_⟩
        rcases h7 with h7 | h7
        · exact .inl h7
        · rw [l1, l2] at h7; simp at h7
    · dsimp only
      split
      · rcases l2 : s₂.io.logger with _ | l'
        · refine ⟨rfl, h1, h2, h3, h4, h5, h6, ?_⟩
          rcases h7 with h7 | h7
          · exact .inl h7
          · rw [l1, l2] at h7; simp at h7
        · simp only [E.logOk, if_true]
          refine ⟨rfl, h1, h2, h3, h4, h5, h6, ?_⟩
          rcases h7 with h7 | h7
          · exact .inl h7
          · refine .inr ⟨by dsimp only; rw [h7.1], ?_⟩
            have h8 := h7.2
            rw [l1, l2] at h8
            cases h8
            rfl
      · intro b hb
        refine S'.cut rfl rfl ?_ hlg
        rcases l2 : s₂.io.logger with _ | l'
        · exact List.prefix_refl _
        · simp only [E.logOk, if_true]
          exact List.prefix_refl _
  · unfold logEvent
    split
    · exact ⟨List.prefix_refl _, hs⟩
    · split <;> exact ⟨List.prefix_refl _, hs⟩
  · unfold logEvent
    split
    · simp
    · split <;> simp

theorem rel_stepLimit {get : Limits → Option Nat} {set : Option Nat → Limits → Limits} {t : Termination}
    (hget : get Limits.none = none) (hset : set none Limits.none = Limits.none) :
    Rel (P := P) (C := C) T (stepLimit get set t) (stepLimit get set t) := by
  have hlg : LG (P := P) (C := C) (stepLimit get set t) := lg_of_eq fun env s => by
    unfold stepLimit
    split
    · rfl
    · dsimp only
      split <;> rfl
  have hcalm : ∀ (env : Env) (s : Slv P C), s.io.lims = Limits.none → stepLimit get set t env s = (.ok (), s) := by
    intro env s hs
    unfold stepLimit
    rw [hs, hget]
    simp only [countDown, hset]
    rw [← hs]
    rfl
  refine ⟨fun env calm E s₁ s₂ S => ?_, fun env s _ hs _ => by rw [hcalm env s hs]; exact ⟨List.prefix_refl _, hs⟩,
    fun env s t _ hs => by rw [hcalm env s hs]; simp, hlg⟩
  rw [hcalm calm s₂ S.lims]
  unfold stepLimit
  split
  · exact fun _ _ => S.cut_eq rfl rfl rfl rfl
  · dsimp only
    split
    · exact fun _ _ => S.cut_eq rfl rfl rfl rfl
    · obtain ⟨h1, h2, h3, h4, h5, h6, h7⟩ := S
      exact ⟨rfl, h1, h2, h3, h4, h5, h6, h7⟩

theorem rel_bumpStats (f : Stats → Stats) : Rel (P := P) (C := C) T (bumpStats f) (bumpStats f) := by
  refine rel_modifyS (fun s₁ s₂ S => ?_) fun s hs => ⟨List.prefix_refl _, hs⟩
  obtain ⟨h1, h2, h3, h4, h5, h6, h7⟩ := S
  exact ⟨h1, h2, h3, h4, by dsimp only; rw [h5], h6, h7⟩

theorem rel_checkTermination : Rel (P := P) (C := C) T checkTermination checkTermination := by
  refine ⟨fun env calm E s₁ s₂ S => ?_, fun env s _ hs _ => ?_, fun env s t hfl _ => ?_, lg_of_eq fun env s => ?_⟩
  · unfold checkTermination
    simp only [E.flag]
    have S' := S
    obtain ⟨h1, h2, h3, h4, h5, h6, h7⟩ := S
    split
    · exact fun _ _ => S'.cut_eq rfl rfl rfl rfl
    · refine ⟨rfl, h1, h2, h3, h4, h5, h6, h7.imp_right fun h => ⟨by dsimp only; rw [h.1]; rfl, h.2⟩⟩
  · unfold checkTermination
    dsimp only
    split <;> exact ⟨List.prefix_refl _, hs⟩
  · unfold checkTermination
    simp [hfl]
  · unfold checkTermination
    dsimp only
    split <;> rfl

theorem rel_freshVar : Rel (P := P) (C := C) T freshVar freshVar :=
  ⟨fun _ _ _ _ _ S => ⟨by unfold freshVar; rw [S.k], by
    obtain ⟨h1, h2, h3, h4, h5, h6, h7⟩ := S
    exact ⟨by unfold freshVar; rw [h1], h2, h3, h4, h5, h6, h7⟩⟩, fun _ _ _ h _ => ⟨List.prefix_refl _, h⟩,
    fun _ _ _ _ _ h => (by cases h), lg_of_eq fun _ _ => rfl⟩

theorem rel_flipLit (l : Lit) : Rel (P := P) (C := C) T (flipLit l) (flipLit l) := by
  refine ⟨fun env calm E s₁ s₂ S => ?_, fun env s _ hs _ => ?_, fun env s t _ _ => ?_, lg_of_eq fun env s => ?_⟩
  · obtain ⟨h1, h2, h3, h4, h5, h6, h7⟩ := S
    have ht : s₁.io.tick = s₂.io.tick ∨ T := h7.elim .inr fun h => .inl h.1
    unfold flipLit
    rw [h1]
    cases s₂.k.ostate with
    | sat m =>
      dsimp only
      rw [E.flip _ _ ht]
      cases calm.flip s₂.io.tick s₂.k.db s₂.k.frozen m l with
      | some m' => exact ⟨rfl, rfl, h2, h3, h4, h5, h6, h7⟩
      | none => exact ⟨rfl, h1, h2, h3, h4, h5, h6, h7⟩
    | input => exact fun _ h => by cases h
    | unsat c => exact fun _ h => by cases h
    | unknown => exact fun _ h => by cases h
  · unfold flipLit
    split
    · split <;> exact ⟨List.prefix_refl _, hs⟩
    · exact ⟨List.prefix_refl _, hs⟩
  · unfold flipLit
    split
    · split <;> simp
    · simp
  · unfold flipLit
    split
    · split <;> rfl
    · rfl

/-- Applies the rules to a computation. -/
macro "rel_auto" : tactic => `(tactic| repeat' (first
  | with_reducible exact rel_pure _
  | with_reducible exact rel_stop _
  | with_reducible exact rel_dbg _
  | with_reducible exact rel_unwrap _
  | with_reducible exact rel_orErr _
  | with_reducible exact rel_logEvent _
  | with_reducible exact rel_checkTermination
  | with_reducible exact rel_bumpStats _
  | with_reducible exact rel_isDebug
  | with_reducible exact rel_hasTightening
  | with_reducible exact rel_freshVar
  | with_reducible exact rel_flipLit _
  | assumption
  | ((with_reducible refine rel_stepLimit ?_ ?_) <;> rfl)
  | (with_reducible refine rel_getS fun k io₁ io₂ encs front fence hst => ?_; (try simp only [hst]))
  | (with_reducible refine rel_ite (fun _ => ?_) (fun _ => ?_))
  | (refine rel_modifyS (fun s₁ s₂ S => by
      obtain ⟨h1, h2, h3, h4, h5, h6, h7⟩ := S
      exact ⟨by simp only [h1, h2, h4], by simp only [h1, h2, h4], by simp only [h3], by simp only [h1, h2, h4], h5, h6, h7⟩)
      (fun s hs => ⟨by simp, hs⟩))
  | (with_reducible refine rel_bind ?_ (fun _ => ?_))))

theorem rel_logCandidate (costs : List Nat) (p : Phase) : Rel (P := P) (C := C) T (logCandidate costs p) (logCandidate costs p) := by
  unfold logCandidate; rel_auto

theorem rel_logOracleCall (r : SolverResult) : Rel (P := P) (C := C) T (logOracleCall r) (logOracleCall r) := by
  unfold logOracleCall; rel_auto

theorem rel_logSolution : Rel (P := P) (C := C) T logSolution logSolution := by
  unfold logSolution; rel_auto

theorem rel_logNonDominated (p : NonDomPoint Assignment) :
    Rel (P := P) (C := C) T (logNonDominated p) (logNonDominated p) := by
  unfold logNonDominated; rel_auto

theorem rel_start (x : String) : Rel (P := P) (C := C) T (logRoutineStart x) (logRoutineStart x) := rel_logEvent _

theorem rel_end : Rel (P := P) (C := C) T logRoutineEnd logRoutineEnd := rel_logEvent _

theorem rel_collect (p : NonDomPoint Assignment) : Rel (P := P) (C := C) T (collect p) (collect p) := by
  unfold collect; rel_auto

theorem rel_addClause (c : Clause) : Rel (P := P) (C := C) T (addClause c) (addClause c) := by
  unfold addClause; rel_auto

theorem rel_addClauses (cs : List Clause) : Rel (P := P) (C := C) T (addClauses cs) (addClauses cs) := by
  induction cs with
  | nil => exact rel_pure _
  | cons c cs ih => exact rel_bind (rel_addClause c) fun _ => ih

theorem rel_oracleSolution : Rel (P := P) (C := C) T oracleSolution oracleSolution := by
  unfold oracleSolution
  refine rel_getS fun k io₁ io₂ encs front fence hst => rel_bind (rel_unwrap _) fun v => ?_
  cases k.ostate <;> rel_auto

theorem rel_oracleCore : Rel (P := P) (C := C) T oracleCore oracleCore := by
  unfold oracleCore
  refine rel_getS fun k io₁ io₂ encs front fence hst => ?_
  dsimp only
  cases k.ostate <;> rel_auto

/-! ## Fronts that are left alone -/

/-- A computation that does not touch the front. -/
def FrontSame (c : M P C α) : Prop := ∀ env s, (c env s).2.front = s.front

theorem fs_pure (a : α) : FrontSame (P := P) (C := C) (M.pure a) := fun _ _ => rfl
theorem fs_stop (e : Stop) : FrontSame (P := P) (C := C) (α := α) (stop e) := fun _ _ => rfl
theorem fs_getS : FrontSame (P := P) (C := C) getS := fun _ _ => rfl

theorem fs_bind {c : M P C α} {f : α → M P C β} (hc : FrontSame c) (hf : ∀ a, FrontSame (f a)) : FrontSame (c >>= f) := by
  intro env s
  change (M.bind c f env s).2.front = _
  have h1 := hc env s
  unfold M.bind
  rcases hr : c env s with ⟨_ | a, s'⟩
  · rw [hr] at h1; exact h1
  · rw [hr] at h1; exact (hf a env s').trans h1

theorem fs_logEvent (e : LogEvent) : FrontSame (P := P) (C := C) (logEvent e) := by
  intro env s
  unfold logEvent
  split
  · rfl
  · split <;> rfl

theorem fs_check : FrontSame (P := P) (C := C) checkTermination := by
  intro env s
  unfold checkTermination
  dsimp only
  split <;> rfl

theorem fs_stepLimit (get : Limits → Option Nat) (set : Option Nat → Limits → Limits) (t : Termination) :
    FrontSame (P := P) (C := C) (stepLimit get set t) := by
  intro env s
  unfold stepLimit
  split
  · rfl
  · dsimp only; split <;> rfl

theorem fs_oracleSolve (as : List Lit) : FrontSame (P := P) (C := C) (oracleSolve as) := by
  intro env s
  unfold oracleSolve
  dsimp only
  split <;> rfl

theorem fs_dbg (b : Bool) : FrontSame (P := P) (C := C) (dbg b) := by
  intro env s
  unfold dbg
  split <;> rfl

theorem fs_unwrap (o : Option α) : FrontSame (P := P) (C := C) (unwrap o) := by
  intro env s
  cases o <;> rfl

theorem fs_attempt {c : M P C α} (hc : FrontSame c) : FrontSame (attempt c) := by
  intro env s
  have h := hc env s
  unfold attempt
  rcases hr : c env s with ⟨e | a, s'⟩
  · rw [hr] at h; cases e <;> exact h
  · rw [hr] at h; exact h

theorem fs_ofExcept (r : Except Stop α) : FrontSame (P := P) (C := C) (ofExcept r) := fun _ _ => rfl

theorem fs_log (f : Stats → Stats) (e : LogEvent) (get : Limits → Option Nat) (set : Option Nat → Limits → Limits)
    (t : Termination) :
    FrontSame (P := P) (C := C) (do bumpStats f; logEvent e; stepLimit get set t) :=
  fs_bind (fun _ _ => rfl) fun _ => fs_bind (fs_logEvent _) fun _ => fs_stepLimit _ _ _

theorem fs_solveAssumps (as : List Lit) : FrontSame (P := P) (C := C) (solveAssumps as) :=
  fs_bind (fs_logEvent _) fun _ => fs_bind (fs_oracleSolve _) fun _ => fs_bind (fs_logEvent _) fun _ =>
    fs_bind fs_check fun _ => fs_bind (fs_log _ _ _ _ _) fun _ => fs_pure _

theorem fs_oracleSolution : FrontSame (P := P) (C := C) oracleSolution := by
  refine fs_bind fs_getS fun s => fs_bind (fs_unwrap _) fun v => ?_
  cases s.k.ostate <;> first | exact fs_pure _ | exact fs_stop _

theorem fs_blockSolution (sol : Assignment) : FrontSame (P := P) (C := C) (blockSolution sol) := by
  refine fs_bind fs_getS fun s => ?_
  cases s.k.opts.enumeration with
  | noEnum => exact fs_stop _
  | solutions _ => exact fun _ _ => rfl
  | pmcss _ => exact fs_bind (fs_unwrap _) fun _ _ _ => rfl

/-! ## Calls to the oracle -/

/-- With the flag set from a time on, the check stops. -/
theorem check_stops {env : Env} {s : Slv P C} {t : Nat} (hf : ∀ u, t < u → env.flag u = true) (ht : t < s.io.tick)
    (f : Unit → M P C α) : ∃ e s', ((checkTermination >>= f) env s) = (.error e, s') := by
  change ∃ e s', M.bind checkTermination f env s = (.error e, s')
  unfold M.bind checkTermination
  simp only [hf _ ht, if_true]
  exact ⟨_, _, rfl⟩

theorem end_check_stops {env : Env} {s : Slv P C} {t : Nat} (hf : ∀ u, t < u → env.flag u = true) (ht : t < s.io.tick)
    (f : Unit → M P C α) : ∃ e s', ((logRoutineEnd >>= fun _ => checkTermination >>= f) env s) = (.error e, s') := by
  change ∃ e s', M.bind logRoutineEnd (fun _ => checkTermination >>= f) env s = (.error e, s')
  unfold M.bind logRoutineEnd logEvent
  cases s.io.logger with
  | none => exact check_stops hf ht f
  | some l =>
    dsimp only
    split
    · rename_i h
      split at h
      · cases h; exact check_stops hf (by dsimp only; omega) f
      · cases h
    · exact ⟨_, _, rfl⟩

/-- The log after a message that was received. -/
theorem logEvent_fine {env : Env} (h : LogFine env) (e : LogEvent) (s : Slv P C) : (logEvent e env s).1 = .ok () ∧
    (logEvent e env s).2.io.logger = s.io.logger.map (· ++ [e]) := by
  unfold logEvent
  cases hl : s.io.logger with
  | none => exact ⟨rfl, by dsimp only; rw [hl]; rfl⟩
  | some l =>
    simp only [h s.io.tick, if_true]
    exact ⟨trivial, rfl⟩

theorem log_first {env : Env} (h : LogFine env) (e : LogEvent) {f : Unit → M P C α} (hf : LG (f ())) (s : Slv P C) :
    LogGrows (s.io.logger.map (· ++ [e])) ((logEvent e >>= f) env s).2.io.logger := by
  change LogGrows _ (M.bind (logEvent e) f env s).2.io.logger
  obtain ⟨h1, h2⟩ := logEvent_fine h e s
  unfold M.bind
  rcases hr : logEvent e env s with ⟨_ | a, s'⟩
  · rw [hr] at h1; cases h1
  · rw [hr] at h2
    rw [← h2]
    exact hf env s'

theorem logEvent_log (env : Env) (e : LogEvent) (s : Slv P C) : (logEvent e env s).2.io.logger = s.io.logger.map (· ++ [e]) ∨
    (¬LogFine env ∧ ∃ x, (logEvent e env s).1 = .error x) ∧ (logEvent e env s).2.io.logger = s.io.logger := by
  unfold logEvent
  cases hl : s.io.logger with
  | none => exact .inl (by dsimp only; rw [hl]; rfl)
  | some l =>
    dsimp only
    split
    · exact .inl rfl
    · rename_i h
      exact .inr ⟨⟨fun hf => h (hf _), _, rfl⟩, hl⟩

theorem end_check_log {env : Env} {s : Slv P C} {t : Nat} (hf : ∀ u, t < u → env.flag u = true)
    (ht : t < s.io.tick) (f : Unit → M P C α) :
    ((logRoutineEnd >>= fun _ => checkTermination >>= f) env s).2.io.logger = s.io.logger.map (· ++ [.routineEnd]) ∨
    ((logRoutineEnd >>= fun _ => checkTermination >>= f) env s).2.io.logger = s.io.logger := by
  change (M.bind logRoutineEnd (fun _ => M.bind checkTermination f) env s).2.io.logger = _ ∨
    (M.bind logRoutineEnd (fun _ => M.bind checkTermination f) env s).2.io.logger = _
  have hl := logEvent_log env .routineEnd s
  have hft : s.io.tick ≤ (logEvent .routineEnd env s).2.io.tick := by
    unfold logEvent
    split
    · exact Nat.le_refl _
    · split <;> exact Nat.le_succ _
  unfold M.bind logRoutineEnd
  rcases hr : logEvent .routineEnd env s with ⟨e | _, s'⟩
  · rw [hr] at hl
    exact hl.imp id fun h => h.2
  · rw [hr] at hl hft
    dsimp only at hft ⊢
    unfold checkTermination
    simp only [hf s'.io.tick (by omega), if_true]
    exact hl.imp id fun h => h.2

theorem rel_solveAssumps (as : List Lit) : Rel (P := P) (C := C) T (solveAssumps as) (solveAssumps as) := by
  unfold solveAssumps
  refine rel_bind (rel_start _) fun _ => ?_
  have hrest : ∀ res, Rel (P := P) (C := C) T
      (do logRoutineEnd; checkTermination; logOracleCall res; M.pure res)
      (do logRoutineEnd; checkTermination; logOracleCall res; M.pure res) := fun res =>
    rel_bind rel_end fun _ => rel_bind rel_checkTermination fun _ => rel_bind (rel_logOracleCall _) fun _ => rel_pure _
  have hlg : LG (P := P) (C := C) (oracleSolve as) := lg_of_eq fun env s => by
    unfold oracleSolve
    dsimp only
    split <;> rfl
  have hlims : ∀ (env : Env) (s : Slv P C), (oracleSolve as env s).2.io.lims = s.io.lims := by
    intro env s
    unfold oracleSolve
    dsimp only
    split <;> rfl
  refine ⟨fun env calm E s₁ s₂ S => ?_, fun env s _ hs hb => grows_bind (fun a _ => ⟨by rw [fs_oracleSolve as env s]; exact List.prefix_refl _, by rw [hlims, hs]⟩)
    (fun a s b => (hrest a).grows env s b) hb, fun env s t hfl hs => ends_bind (fun a _ => by rw [hlims, hs]) ?_
      fun a s' hs' => (hrest a).ends env s' t hfl hs', lg_bind hlg fun a => (hrest a).logs⟩
  rotate_left
  · unfold oracleSolve
    dsimp only
    split <;> simp
  have ht : s₁.io.tick = s₂.io.tick ∨ T := S.time.elim .inr fun h => .inl h.1
  rcases E.oracle _ _ ht s₁.k.conflLimited s₁.k.db as with h | ⟨h, hf⟩
  · refine outcome_bind E rfl ?_ (fun _ _ => by rw [hlims, S.lims]) hrest
    obtain ⟨h1, h2, h3, h4, h5, h6, h7⟩ := S
    have h8 : T ∨ s₁.io.tick + 1 = s₂.io.tick + 1 ∧ s₁.io.logger = s₂.io.logger :=
      h7.imp_right fun h => ⟨by rw [h.1], h.2⟩
    unfold oracleSolve
    rw [h, h1]
    dsimp only
    cases calm.oracle s₂.io.tick s₂.k.conflLimited s₂.k.db as <;> exact ⟨rfl, rfl, h2, h3, h4, h5, h6, h8⟩
  · obtain ⟨e, s', he⟩ : ∃ e s', ((oracleSolve as >>= fun res => do
        logRoutineEnd; checkTermination; logOracleCall res; M.pure res) env s₁) = (.error e, s') := by
      change ∃ e s', M.bind (oracleSolve as) (fun res => do
        logRoutineEnd; checkTermination; logOracleCall res; M.pure res) env s₁ = (.error e, s')
      unfold M.bind oracleSolve
      simp only [h]
      exact end_check_stops hf (by dsimp only; omega) _
    have hfs : ∀ s : Slv P C, ∀ env, ((oracleSolve as >>= fun res => do
        logRoutineEnd; checkTermination; logOracleCall res; M.pure res) env s).2.front = s.front := fun s env =>
      fs_bind (fs_oracleSolve _) (fun _ => fs_bind (fs_logEvent _) fun _ =>
        fs_bind fs_check fun _ => fs_bind (fs_log _ _ _ _ _) fun _ => fs_pure _) env s
    have h1 := hfs s₁ env
    have hlog : s'.io.logger = s₁.io.logger.map (· ++ [.routineEnd]) ∨ s'.io.logger = s₁.io.logger := by
      have h2 : ((oracleSolve as >>= fun res => do
        logRoutineEnd; checkTermination; logOracleCall res; M.pure res) env s₁).2.io.logger =
          s₁.io.logger.map (· ++ [.routineEnd]) ∨ ((oracleSolve as >>= fun res => do
        logRoutineEnd; checkTermination; logOracleCall res; M.pure res) env s₁).2.io.logger = s₁.io.logger := by
        change (M.bind (oracleSolve as) (fun res => do
          logRoutineEnd; checkTermination; logOracleCall res; M.pure res) env s₁).2.io.logger = _ ∨
          (M.bind (oracleSolve as) (fun res => do
          logRoutineEnd; checkTermination; logOracleCall res; M.pure res) env s₁).2.io.logger = _
        unfold M.bind oracleSolve
        simp only [h]
        exact end_check_log hf (by dsimp only; omega) _
      rw [he] at h2
      exact h2
    have hlog2 : LogGrows (s₂.io.logger.map (· ++ [.routineEnd])) ((oracleSolve as >>= fun res => do
        logRoutineEnd; checkTermination; logOracleCall res; M.pure res) calm s₂).2.io.logger := by
      change LogGrows _ (M.bind (oracleSolve as) (fun res => do
        logRoutineEnd; checkTermination; logOracleCall res; M.pure res) calm s₂).2.io.logger
      have hf : ∀ res, LG (P := P) (C := C) (do checkTermination; logOracleCall res; M.pure res) := fun res =>
        (rel_bind rel_checkTermination fun _ => rel_bind (rel_logOracleCall (T := T) _) fun _ => rel_pure _ :
          Rel T (do checkTermination; logOracleCall res; M.pure res) (do checkTermination; logOracleCall res; M.pure res)).logs
      unfold M.bind oracleSolve
      dsimp only
      split
      · rename_i hr
        split at hr <;> (cases hr; exact log_first E.logOk _ (hf _) _)
      · rename_i hr
        split at hr <;> cases hr
    rw [he] at h1 ⊢
    intro b _
    refine ⟨?_, S.time.imp_right fun h => ?_⟩
    · rw [hfs s₂ calm, h1, S.front]
      exact frontPrefix_refl _
    · dsimp only
      rcases hlog with hlog | hlog
      · rw [hlog, h.2]
        exact hlog2.before
      · rw [hlog, h.2]
        exact LogGrows.before (LogGrows.trans ⟨[.routineEnd], rfl⟩ hlog2)

/-! ## Costs -/

theorem rel_getCost (i : Nat) (sol : Assignment) : Rel (P := P) (C := C) T (getCost i sol) (getCost i sol) := by
  unfold getCost; rel_auto

theorem rel_tryFlip (l : Lit) : Rel (P := P) (C := C) T (tryFlip l) (tryFlip l) := by
  unfold tryFlip; rel_auto

theorem rel_tightenLoop : ∀ (ps : List (Lit × Nat)) (sol : Assignment),
    Rel (P := P) (C := C) T (tightenLoop ps sol) (tightenLoop ps sol)
  | [], _ => rel_pure _
  | (l, w) :: ps, sol => by
    unfold tightenLoop
    refine rel_ite (fun _ => rel_bind (rel_tryFlip l) fun f => rel_ite (fun _ => ?_) (fun _ => ?_)) fun _ => rel_tightenLoop ps sol
    · exact rel_bind (rel_tightenLoop ps _) fun _ => rel_pure _
    · exact rel_bind (rel_tightenLoop ps _) fun _ => rel_pure _

theorem rel_rereadSol (o : Objective) (r : Nat × Nat × Assignment) :
    Rel (P := P) (C := C) T (rereadSol o r) (rereadSol o r) := by
  unfold rereadSol
  refine rel_ite (fun _ => rel_ite (fun _ => rel_stop _) fun _ => ?_) fun _ => rel_pure _
  refine rel_getS fun k io₁ io₂ encs front fence hst => ?_
  dsimp only
  cases k.ostate <;> rel_auto

theorem rel_getCostTight (i : Nat) (sol : Assignment) (t : Bool) :
    Rel (P := P) (C := C) T (getCostTight i sol t) (getCostTight i sol t) := by
  unfold getCostTight
  refine rel_bind rel_hasTightening fun f => rel_ite (fun _ => ?_) fun _ => rel_bind (rel_getCost i sol) fun _ => rel_pure _
  refine rel_getS fun k io₁ io₂ encs front fence hst => rel_bind (rel_unwrap _) fun o => ?_
  exact rel_bind (rel_tightenLoop _ _) fun r => rel_bind (rel_rereadSol o r) fun _ => rel_bind (rel_logEvent _) fun _ => rel_pure _

theorem rel_tightCosts (t : Bool) : ∀ (n i : Nat) (sol : Assignment),
    Rel (P := P) (C := C) T (tightCosts t n i sol) (tightCosts t n i sol)
  | 0, _, _ => rel_pure _
  | n + 1, i, sol => by
    unfold tightCosts
    exact rel_bind (rel_getCostTight i sol t) fun r => rel_bind (rel_tightCosts t n (i + 1) r.2) fun _ => rel_pure _

theorem rel_getSolutionAndCosts (t : Bool) :
    Rel (P := P) (C := C) T (getSolutionAndCosts t) (getSolutionAndCosts t) := by
  unfold getSolutionAndCosts
  refine rel_bind rel_oracleSolution fun sol => rel_getS fun k io₁ io₂ encs front fence hst => ?_
  simp only [hst]
  exact rel_bind (rel_tightCosts t _ _ _) fun r => rel_bind (rel_dbg _) fun _ => rel_pure _

theorem rel_externalize (costs : List Nat) : Rel (P := P) (C := C) T (externalize costs) (externalize costs) := by
  unfold externalize; rel_auto

theorem rel_blockSolution (sol : Assignment) : Rel (P := P) (C := C) T (blockSolution sol) (blockSolution sol) := by
  unfold blockSolution
  refine rel_getS fun k io₁ io₂ encs front fence hst => ?_
  dsimp only
  cases k.opts.enumeration with
  | noEnum => exact rel_stop _
  | solutions _ => exact rel_addClause _
  | pmcss _ => exact rel_bind (rel_unwrap _) fun _ => rel_addClause _

theorem rel_unphaseSolution : Rel (P := P) (C := C) T unphaseSolution unphaseSolution := by
  unfold unphaseSolution; rel_auto

/-! ## Enumeration -/

/-- Two computations that return the same values, if any. -/
def OkEq (c d : M P C α) : Prop := ∀ env s r s', c env s = (.ok r, s') ↔ d env s = (.ok r, s')

/-- A computation that never returns. -/
def Fails (c : M P C α) : Prop := ∀ env s r s', c env s ≠ (.ok r, s')

theorem fails_bind {c : M P C α} {f : α → M P C β} (h : ∀ a, Fails (f a)) : Fails (c >>= f) := by
  intro env s r s' hr
  change M.bind c f env s = _ at hr
  unfold M.bind at hr
  rcases hc : c env s with ⟨_ | a, s''⟩
  · rw [hc] at hr; cases hr
  · rw [hc] at hr; exact h a _ _ _ _ hr

theorem fails_first {c : M P C α} (f : α → M P C β) (h : Fails c) : Fails (c >>= f) := by
  intro env s r s' hr
  change M.bind c f env s = _ at hr
  unfold M.bind at hr
  rcases hc : c env s with ⟨_ | a, s''⟩
  · rw [hc] at hr; cases hr
  · exact h _ _ _ _ hc

theorem okEq_refl (c : M P C α) : OkEq c c := fun _ _ _ _ => Iff.rfl

theorem okEq_bind {c d : M P C α} {f g : α → M P C β} (h : OkEq c d) (hf : ∀ a, OkEq (f a) (g a)) :
    OkEq (c >>= f) (d >>= g) := by
  intro env s r s'
  change M.bind c f env s = _ ↔ M.bind d g env s = _
  unfold M.bind
  rcases hc : c env s with ⟨_ | a, s''⟩ <;> rcases hd : d env s with ⟨_ | b, t⟩
  · simp
  · have := (h env s b t).2 hd; rw [hc] at this; simp at this
  · have := (h env s a s'').1 hc; rw [hd] at this; simp at this
  · have := (h env s a s'').1 hc
    rw [hd] at this
    cases this
    exact hf a env s'' r s'

theorem okEq_attempt {c : M P C α} {f : Except Stop α → M P C β} {g : α → M P C β} (h1 : ∀ e, Fails (f (.error e)))
    (h2 : ∀ a, OkEq (f (.ok a)) (g a)) : OkEq (attempt c >>= f) (c >>= g) := by
  intro env s r s'
  change M.bind (attempt c) f env s = _ ↔ M.bind c g env s = _
  unfold M.bind attempt
  rcases hc : c env s with ⟨e | a, s''⟩
  · have := h1 e env s'' r s'
    cases e <;> simp [this]
  · exact h2 a env s'' r s'

/-- The body of `yield_solutions` without the handling of early exits. -/
def yieldPlain (costs : List Nat) (assumps : List Lit) (st : NonDomPoint Assignment × Assignment) :
    M P C ((NonDomPoint Assignment × Assignment) ⊕ Unit) := do
  let s ← getS
  dbg (s.k.costsOf st.2 == costs)
  let solution := st.2.truncate s.k.vm.maxOrigVar
  let nd := st.1.addSol solution
  logSolution
  if enumDone s.k.opts.enumeration nd.nSols then do
    logNonDominated nd
    collect nd
    logRoutineEnd
    M.pure (.inr ())
  else do
    checkTermination
    blockSolution solution
    let res ← solveAssumps assumps
    if res = .unsat then do
      logNonDominated nd
      collect nd
      logRoutineEnd
      M.pure (.inr ())
    else do
      checkTermination
      let sol ← oracleSolution
      M.pure (.inl (nd, sol))

theorem okEq_last (nd : NonDomPoint Assignment) : OkEq (P := P) (C := C)
    (do
      let ppTerm ← attempt (logNonDominated nd)
      collect nd
      logRoutineEnd
      ofExcept ppTerm
      M.pure (.inr () : (NonDomPoint Assignment × Assignment) ⊕ Unit))
    (do
      logNonDominated nd
      collect nd
      logRoutineEnd
      M.pure (.inr ())) :=
  okEq_attempt (fun e => fails_bind fun _ => fails_bind fun _ => fails_first _ fun _ _ _ _ h => by cases h)
    fun a => okEq_bind (okEq_refl _) fun _ => okEq_bind (okEq_refl _) fun _ _ _ _ _ => Iff.rfl

theorem okEq_yield (costs : List Nat) (assumps : List Lit) (st : NonDomPoint Assignment × Assignment) :
    OkEq (P := P) (C := C) (yieldBody costs assumps st) (yieldPlain costs assumps st) := by
  refine okEq_bind (okEq_refl _) fun s => okEq_bind (okEq_refl _) fun _ => okEq_attempt (fun e => ?_) fun _ => ?_
  · exact fails_bind fun _ => fails_bind fun _ => fails_bind fun _ _ _ _ _ h => by cases h
  · dsimp only
    split
    · exact okEq_last _
    · refine okEq_bind (okEq_refl _) fun _ => okEq_bind (okEq_refl _) fun _ => okEq_bind (okEq_refl _) fun res => ?_
      split
      · exact okEq_last _
      · exact okEq_refl _

theorem rel_yieldPlain (costs : List Nat) (assumps : List Lit) (st : NonDomPoint Assignment × Assignment) :
    Rel (P := P) (C := C) T (yieldPlain costs assumps st) (yieldPlain costs assumps st) := by
  have hlast : ∀ nd, Rel (P := P) (C := C) T
      (do
        logNonDominated nd
        collect nd
        logRoutineEnd
        M.pure (.inr () : (NonDomPoint Assignment × Assignment) ⊕ Unit))
      (do
        logNonDominated nd
        collect nd
        logRoutineEnd
        M.pure (.inr ())) := fun nd =>
    rel_bind (rel_logNonDominated nd) fun _ => rel_bind (rel_collect nd) fun _ => rel_bind rel_end fun _ => rel_pure _
  unfold yieldPlain
  refine rel_getS fun k io₁ io₂ encs front fence hst => rel_bind (rel_dbg _) fun _ => rel_bind rel_logSolution fun _ => ?_
  refine rel_ite (fun _ => hlast _) fun _ => rel_bind rel_checkTermination fun _ => rel_bind (rel_blockSolution _) fun _ => ?_
  refine rel_bind (rel_solveAssumps _) fun res => rel_ite (fun _ => hlast _) fun _ => ?_
  exact rel_bind rel_checkTermination fun _ => rel_bind rel_oracleSolution fun _ => rel_pure _

theorem wp_fs {env : Env} {c : M P C α} (hc : FrontSame c) {s : Slv P C} {Q : α → Slv P C → Prop} {E : Stop → Slv P C → Prop}
    (h1 : ∀ a s', s'.front = s.front → Q a s') (h2 : ∀ e s', s'.front = s.front → E e s') : wp env c Q E s := by
  have h := hc env s
  unfold wp
  rcases hr : c env s with ⟨e | a, s'⟩
  · rw [hr] at h; exact h2 e s' h
  · rw [hr] at h; exact h1 a s' h

/-- What the body of `yield_solutions` does to the front. -/
theorem yieldBody_front (env : Env) (costs : List Nat) (assumps : List Lit) (st : NonDomPoint Assignment × Assignment)
    (s : Slv P C) : wp env (yieldBody costs assumps st)
      (fun r s' => match r with
        | .inl st' => s'.front = s.front ∧ st'.1 = st.1.addSol (st.2.truncate s.k.vm.maxOrigVar)
        | .inr _ => s'.front = s.front ++ [st.1.addSol (st.2.truncate s.k.vm.maxOrigVar)])
      (fun _ s' => s'.front = s.front ∨ s'.front = s.front ++ [st.1.addSol (st.2.truncate s.k.vm.maxOrigVar)]) s := by
  unfold yieldBody
  rw [wp_bind, wp_getS, wp_bind]
  refine wp_fs (fs_dbg _) (fun _ s1 h1 => ?_) fun _ s' h => .inl h
  dsimp only
  generalize st.1.addSol (st.2.truncate s.k.vm.maxOrigVar) = nd
  have hlast : ∀ s1 : Slv P C, s1.front = s.front → wp env
      (do
        let ppTerm ← attempt (logNonDominated nd)
        collect nd
        logRoutineEnd
        ofExcept ppTerm
        M.pure (.inr () : (NonDomPoint Assignment × Assignment) ⊕ Unit))
      (fun r s' => match r with
        | .inl st' => s'.front = s.front ∧ st'.1 = nd
        | .inr _ => s'.front = s.front ++ [nd])
      (fun _ s' => s'.front = s.front ∨ s'.front = s.front ++ [nd]) s1 := by
    intro s1 h1
    rw [wp_bind]
    refine wp_fs (fs_attempt (fs_log _ _ _ _ _)) (fun _ s2 h2 => ?_) fun _ s' h => .inl (h.trans h1)
    have h2 := h2.trans h1
    unfold collect
    rw [wp_bind, wp_modifyS, wp_bind]
    refine wp_fs (fs_logEvent _) (fun _ s3 h3 => ?_) fun _ s' h => .inr (h.trans (by simp only [h2]))
    have h3 : s3.front = s.front ++ [nd] := h3.trans (by simp only [h2])
    rw [wp_bind]
    refine wp_fs (fs_ofExcept _) (fun _ s4 h4 => ?_) fun _ s' h => .inr (h.trans h3)
    exact h4.trans h3
  rw [wp_bind]
  refine wp_fs (fs_attempt (fs_log _ _ _ _ _)) (fun r s2 h2 => ?_) fun _ s' h => .inl (h.trans h1)
  have h2 := h2.trans h1
  cases r with
  | error e =>
    dsimp only
    rw [wp_bind]
    refine wp_fs (fs_attempt (fs_log _ _ _ _ _)) (fun _ s3 h3 => ?_) fun _ s' h => .inl (h.trans h2)
    have h3 := h3.trans h2
    unfold collect
    rw [wp_bind, wp_modifyS, wp_bind]
    refine wp_fs (fs_ofExcept _) (fun _ s4 h4 => ?_) fun _ s' h => .inr (h.trans (by simp only [h3]))
    exact .inr (h4.trans (by simp only [h3]))
  | ok _ =>
    dsimp only
    split
    · exact hlast s2 h2
    · rw [wp_bind]
      refine wp_fs fs_check (fun _ s3 h3 => ?_) fun _ s' h => .inl (h.trans h2)
      rw [wp_bind]
      refine wp_fs (fs_blockSolution _) (fun _ s4 h4 => ?_) fun _ s' h => .inl (h.trans (h3.trans h2))
      rw [wp_bind]
      refine wp_fs (fs_solveAssumps _) (fun res s5 h5 => ?_) fun _ s' h => .inl (h.trans (h4.trans (h3.trans h2)))
      have h5 := h5.trans (h4.trans (h3.trans h2))
      split
      · exact hlast s5 h5
      · rw [wp_bind]
        refine wp_fs fs_check (fun _ s6 h6 => ?_) fun _ s' h => .inl (h.trans h5)
        rw [wp_bind]
        refine wp_fs fs_oracleSolution (fun _ s7 h7 => ?_) fun _ s' h => .inl (h.trans (h6.trans h5))
        exact ⟨h7.trans (h6.trans h5), rfl⟩

theorem addSol_costs (p : NonDomPoint Assignment) (a : Assignment) : (p.addSol a).costs = p.costs := rfl

theorem addSol_sols (p : NonDomPoint Assignment) (a : Assignment) : p.sols <+: (p.addSol a).sols := ⟨[a], rfl⟩

theorem loopM_succ (b : α → M P C (α ⊕ β)) (n : Nat) (a : α) (env : Env) (s : Slv P C) :
    loopM b (n + 1) a env s = (match b a env s with
      | (.ok (.inl a'), s') => loopM b n a' env s'
      | (.ok (.inr r), s') => (.ok r, s')
      | (.error e, s') => (.error e, s')) := by
  change M.bind (b a) _ env s = _
  unfold M.bind
  rcases b a env s with ⟨e | (a' | r), s'⟩ <;> rfl

/-- A call that ends has added one point, with the solution given and those before it. -/
theorem yieldLoop_front (env : Env) (costs : List Nat) (assumps : List Lit) : ∀ (n : Nat)
    (st : NonDomPoint Assignment × Assignment) (s : Slv P C),
    (loopM (yieldBody costs assumps) n st env s).1 = .ok () →
    ∃ p, (loopM (yieldBody costs assumps) n st env s).2.front = s.front ++ [p] ∧ p.costs = st.1.costs ∧
      (st.1.addSol (st.2.truncate s.k.vm.maxOrigVar)).sols <+: p.sols
  | 0, _, _, h => by cases h
  | n + 1, st, s, h => by
    rw [loopM_succ] at h ⊢
    have hb := yieldBody_front env costs assumps st s
    unfold wp at hb
    rcases hr : yieldBody costs assumps st env s with ⟨e | (st' | _), s'⟩
    · rw [hr] at h; cases h
    · rw [hr] at h hb
      dsimp only at h hb ⊢
      obtain ⟨p, h1, h2, h3⟩ := yieldLoop_front env costs assumps n st' s' h
      refine ⟨p, by rw [h1, hb.1], by rw [h2, hb.2, addSol_costs], ?_⟩
      rw [← hb.2]
      exact (addSol_sols _ _).trans h3
    · rw [hr] at hb
      exact ⟨_, hb, rfl, List.prefix_refl _⟩

/-- A stored result that is not an early termination. -/
def Kept (r : Except Stop α) : Prop := ∀ t, r ≠ .error (.terminated t)

/-- A computation that neither sets limits nor ends early. -/
def Lasts (c : M P C α) (Q : α → Prop) : Prop := ∀ env s, (∀ u, env.flag u = false) → s.io.lims = Limits.none →
  wp env c (fun a s' => Q a ∧ s'.io.lims = Limits.none) (fun e _ => ∀ t, e ≠ .terminated t) s

theorem lasts_bind {c : M P C α} {f : α → M P C β} {Q : α → Prop} {R : β → Prop} (hc : Lasts c Q)
    (hf : ∀ a, Q a → Lasts (f a) R) : Lasts (c >>= f) R := by
  intro env s hfl hs
  rw [wp_bind]
  exact wp_mono (hc env s hfl hs) (fun a s' h => hf a h.1 env s' hfl h.2) fun _ _ h => h

theorem Rel.lasts {c₁ c₂ : M P C α} (h : Rel T c₁ c₂) : Lasts c₂ fun _ => True := by
  intro env s hfl hs
  have h1 := h.grows env s
  have h2 := fun t => h.ends env s t hfl hs
  unfold wp
  rcases hr : c₂ env s with ⟨e | a, s'⟩
  · rw [hr] at h2
    exact fun t ht => h2 t (by rw [ht])
  · rw [hr] at h1
    exact ⟨trivial, (h1 a hs rfl).2⟩

theorem lasts_pure (a : α) : Lasts (P := P) (C := C) (M.pure a) fun _ => True := fun _ _ _ hs => ⟨trivial, hs⟩

theorem log_lims {f : Stats → Stats} {e : LogEvent} {get : Limits → Option Nat} {set : Option Nat → Limits → Limits}
    {t : Termination} (hget : get Limits.none = none) (hset : set none Limits.none = Limits.none) (env : Env) (s : Slv P C)
    (hs : s.io.lims = Limits.none) :
    ((do bumpStats f; logEvent e; stepLimit get set t : M P C Unit) env s).2.io.lims = Limits.none := by
  have h : ∀ s : Slv P C, s.io.lims = Limits.none → (stepLimit get set t env s).2.io.lims = Limits.none := by
    intro s hs
    unfold stepLimit
    rw [hs, hget]
    simp only [countDown, hset]
    rfl
  change (M.bind (bumpStats f) (fun _ => M.bind (logEvent e) fun _ => stepLimit get set t) env s).2.io.lims = _
  unfold M.bind bumpStats modifyS logEvent
  dsimp only
  cases s.io.logger with
  | none => exact h _ hs
  | some l =>
    dsimp only
    cases env.logOk s.io.tick with
    | true => exact h _ hs
    | false => exact hs

theorem lasts_attempt {c : M P C α} (hc : Lasts c fun _ => True)
    (hl : ∀ env s, s.io.lims = Limits.none → (c env s).2.io.lims = Limits.none) : Lasts (attempt c) Kept := by
  intro env s hfl hs
  have h := hc env s hfl hs
  unfold wp at h ⊢
  unfold attempt
  rcases hr : c env s with ⟨e | a, s'⟩
  · have hl' := hl env s hs
    rw [hr] at h hl'
    cases e with
    | terminated t => exact absurd rfl (h t)
    | error => exact ⟨fun t ht => (by cases ht), hl'⟩
    | panic => exact fun t ht => by cases ht
    | fuel => exact fun t ht => by cases ht
  · rw [hr] at h
    exact ⟨fun t ht => by (cases ht), h.2⟩

theorem lasts_ofExcept {r : Except Stop α} (h : Kept r) : Lasts (P := P) (C := C) (ofExcept r) fun _ => True := by
  intro env s _ hs
  cases r with
  | ok a => exact ⟨trivial, hs⟩
  | error e => exact fun t ht => h t (by rw [ht])

theorem lasts_yieldBody (costs : List Nat) (assumps : List Lit) (st : NonDomPoint Assignment × Assignment) :
    Lasts (P := P) (C := C) (yieldBody costs assumps st) fun _ => True := by
  have hlast : ∀ nd, Lasts (P := P) (C := C)
      (do
        let ppTerm ← attempt (logNonDominated nd)
        collect nd
        logRoutineEnd
        ofExcept ppTerm
        M.pure (.inr () : (NonDomPoint Assignment × Assignment) ⊕ Unit)) fun _ => True := fun nd =>
    lasts_bind (lasts_attempt (rel_logNonDominated (T := True) nd).lasts (log_lims rfl rfl)) fun r hr =>
      lasts_bind (rel_collect (T := True) nd).lasts fun _ _ => lasts_bind (rel_end (T := True)).lasts fun _ _ =>
        lasts_bind (lasts_ofExcept hr) fun _ _ => lasts_pure _
  unfold yieldBody
  refine lasts_bind (Q := fun _ => True) (fun _ _ _ hs => ⟨trivial, hs⟩) fun s _ => lasts_bind (rel_dbg (T := True) _).lasts fun _ _ => ?_
  refine lasts_bind (lasts_attempt (rel_logSolution (T := True)).lasts (log_lims rfl rfl)) fun r hr => ?_
  cases r with
  | error e =>
    refine lasts_bind (lasts_attempt (rel_logNonDominated (T := True) _).lasts (log_lims rfl rfl)) fun r hr' => ?_
    refine lasts_bind (rel_collect (T := True) _).lasts fun _ _ => lasts_bind (lasts_ofExcept hr') fun _ _ => ?_
    exact fun _ _ _ _ t ht => hr t (by rw [ht])
  | ok _ =>
    dsimp only
    split
    · exact hlast _
    · refine lasts_bind (rel_checkTermination (T := True)).lasts fun _ _ => lasts_bind (rel_blockSolution (T := True) _).lasts fun _ _ => ?_
      refine lasts_bind (rel_solveAssumps (T := True) _).lasts fun res _ => ?_
      split
      · exact hlast _
      · exact lasts_bind (rel_checkTermination (T := True)).lasts fun _ _ =>
          lasts_bind (rel_oracleSolution (T := True)).lasts fun _ _ => lasts_pure _

theorem lasts_loop {b : α → M P C (α ⊕ β)} (h : ∀ a, Lasts (b a) fun _ => True) : ∀ (n : Nat) (a : α),
    Lasts (loopM b n a) fun _ => True
  | 0, _ => fun _ _ _ _ t ht => by cases ht
  | n + 1, a => lasts_bind (h a) fun r _ => (match r with
    | .inl a' => lasts_loop h n a'
    | .inr r => lasts_pure r)

/-! ## What `yield_solutions` logs -/

/-- A computation that adds no message about a non-dominated point to the log. -/
def NG (c : M P C α) : Prop := ∀ env s, ∃ t, (c env s).2.io.logger = s.io.logger.map (· ++ t) ∧ ∀ r, .nonDominated r ∉ t

theorem NG.lg {c : M P C α} (h : NG c) : LG c := fun env s => (h env s).imp fun _ h => h.1

theorem ng_of_eq {c : M P C α} (h : ∀ env s, (c env s).2.io.logger = s.io.logger) : NG c := fun env s =>
  ⟨[], by rw [h env s]; cases s.io.logger <;> simp, by simp⟩

theorem ng_bind {c : M P C α} {f : α → M P C β} (hc : NG c) (hf : ∀ a, NG (f a)) : NG (c >>= f) := by
  intro env s
  change ∃ t, (M.bind c f env s).2.io.logger = _ ∧ _
  have h1 := hc env s
  unfold M.bind
  rcases hr : c env s with ⟨_ | a, s'⟩
  · rw [hr] at h1; exact h1
  · rw [hr] at h1
    obtain ⟨t, h1, h2⟩ := h1
    obtain ⟨u, h3, h4⟩ := hf a env s'
    refine ⟨t ++ u, ?_, fun r hr => (List.mem_append.1 hr).elim (h2 r) (h4 r)⟩
    dsimp only at h1 h3 ⊢
    rw [h3, h1]
    cases s.io.logger <;> simp

theorem ng_logEvent {e : LogEvent} (he : ∀ r, e ≠ .nonDominated r) : NG (P := P) (C := C) (logEvent e) := by
  intro env s
  unfold logEvent
  cases hl : s.io.logger with
  | none => exact ⟨[], hl, by simp⟩
  | some l =>
    dsimp only
    split
    · exact ⟨[e], rfl, fun r hr => he r (List.mem_singleton.1 hr).symm⟩
    · exact ⟨[], by dsimp only; rw [hl]; simp, by simp⟩

theorem ng_stepLimit (get : Limits → Option Nat) (set : Option Nat → Limits → Limits) (t : Termination) :
    NG (P := P) (C := C) (stepLimit get set t) := ng_of_eq fun env s => by
  unfold stepLimit
  split
  · rfl
  · dsimp only; split <;> rfl

theorem ng_check : NG (P := P) (C := C) checkTermination := ng_of_eq fun env s => by
  unfold checkTermination
  dsimp only
  split <;> rfl

theorem ng_solveAssumps (as : List Lit) : NG (P := P) (C := C) (solveAssumps as) := by
  refine ng_bind (ng_logEvent fun r h => by cases h) fun _ => ng_bind (ng_of_eq fun env s => ?_) fun res =>
    ng_bind (ng_logEvent fun r h => by cases h) fun _ => ng_bind ng_check fun _ => ng_bind ?_ fun _ => ng_of_eq fun _ _ => rfl
  · unfold oracleSolve
    dsimp only
    split <;> rfl
  · exact ng_bind (ng_of_eq fun _ _ => rfl) fun _ => ng_bind (ng_logEvent fun r h => by cases h) fun _ => ng_stepLimit _ _ _

theorem ng_unwrap (o : Option α) : NG (P := P) (C := C) (unwrap o) := ng_of_eq fun _ _ => by cases o <;> rfl

theorem ng_oracleSolution : NG (P := P) (C := C) oracleSolution := by
  refine ng_bind (ng_of_eq fun _ _ => rfl) fun s => ng_bind (ng_unwrap _) fun v => ?_
  cases s.k.ostate <;> exact ng_of_eq fun _ _ => rfl

theorem ng_blockSolution (sol : Assignment) : NG (P := P) (C := C) (blockSolution sol) := by
  refine ng_bind (ng_of_eq fun _ _ => rfl) fun s => ?_
  cases s.k.opts.enumeration with
  | noEnum => exact ng_of_eq fun _ _ => rfl
  | solutions _ => exact ng_of_eq fun _ _ => rfl
  | pmcss _ => exact ng_bind (ng_unwrap _) fun _ => ng_of_eq fun _ _ => rfl

theorem lg_attempt {c : M P C α} (hc : LG c) : LG (attempt c) := by
  intro env s
  have h := hc env s
  unfold attempt
  rcases hr : c env s with ⟨e | a, s'⟩
  · rw [hr] at h; cases e <;> exact h
  · rw [hr] at h; exact h

/-- Logging an event with statistics and limit, if the logger works. -/
theorem log_fine {env : Env} (h : LogFine env) (f : Stats → Stats) (e : LogEvent) (get : Limits → Option Nat)
    (set : Option Nat → Limits → Limits) (t : Termination) (s : Slv P C) :
    ((do bumpStats f; logEvent e; stepLimit get set t : M P C Unit) env s).2.io.logger = s.io.logger.map (· ++ [e]) := by
  change (M.bind (bumpStats f) (fun _ => M.bind (logEvent e) fun _ => stepLimit get set t) env s).2.io.logger = _
  unfold M.bind bumpStats modifyS
  dsimp only
  obtain ⟨h1, h2⟩ := logEvent_fine h e ({ s with io := { s.io with stats := f s.io.stats } } : Slv P C)
  rcases hr : logEvent e env ({ s with io := { s.io with stats := f s.io.stats } } : Slv P C) with ⟨_ | a, s'⟩
  · rw [hr] at h1; cases h1
  · rw [hr] at h2
    dsimp only at h2 ⊢
    rw [← h2]
    unfold stepLimit
    split
    · rfl
    · dsimp only; split <;> rfl

theorem log_log (env : Env) (f : Stats → Stats) (e : LogEvent) (get : Limits → Option Nat)
    (set : Option Nat → Limits → Limits) (t : Termination) (s : Slv P C) :
    ((do bumpStats f; logEvent e; stepLimit get set t : M P C Unit) env s).2.io.logger = s.io.logger.map (· ++ [e]) ∨
    ¬LogFine env ∧ ((do bumpStats f; logEvent e; stepLimit get set t : M P C Unit) env s).2.io.logger = s.io.logger := by
  change (M.bind (bumpStats f) (fun _ => M.bind (logEvent e) fun _ => stepLimit get set t) env s).2.io.logger = _ ∨ _ ∧
    (M.bind (bumpStats f) (fun _ => M.bind (logEvent e) fun _ => stepLimit get set t) env s).2.io.logger = _
  unfold M.bind bumpStats modifyS
  dsimp only
  have h2 := logEvent_log env e ({ s with io := { s.io with stats := f s.io.stats } } : Slv P C)
  rcases hr : logEvent e env ({ s with io := { s.io with stats := f s.io.stats } } : Slv P C) with ⟨_ | a, s'⟩
  · rw [hr] at h2
    exact h2.imp id fun h => ⟨h.1.1, h.2⟩
  · rw [hr] at h2
    have h3 : (stepLimit get set t env s').2.io.logger = s'.io.logger := by
      unfold stepLimit
      split
      · rfl
      · dsimp only; split <;> rfl
    dsimp only at h2 ⊢
    rw [h3]
    exact h2.imp id fun h => ⟨h.1.1, h.2⟩

theorem attempt_logger (c : M P C α) (env : Env) (s : Slv P C) : (attempt c env s).2.io.logger = (c env s).2.io.logger := by
  unfold attempt
  rcases c env s with ⟨e | a, s'⟩
  · cases e <;> rfl
  · rfl

/-- The end of `yield_solutions`, `/repo/core/src/algs.rs:718-721`. -/
def yieldLast (nd : NonDomPoint Assignment) : M P C ((NonDomPoint Assignment × Assignment) ⊕ Unit) := do
  let ppTerm ← attempt (logNonDominated nd)
  collect nd
  logRoutineEnd
  ofExcept ppTerm
  M.pure (.inr ())

/-- What it logs. -/
theorem yieldLast_log {env : Env} (h : LogFine env) (nd : NonDomPoint Assignment) (s : Slv P C) :
    (yieldLast nd env s).2.io.logger = s.io.logger.map (· ++ [.nonDominated nd, .routineEnd]) ∨
    (∃ e, (yieldLast nd env s).1 = .error e) ∧
      (yieldLast nd env s).2.io.logger = s.io.logger.map (· ++ [.nonDominated nd]) := by
  have h1 : (attempt (logNonDominated nd) env s).2.io.logger = _ :=
    (attempt_logger _ env s).trans (log_fine h _ _ _ _ _ s)
  have he : yieldLast nd env s = M.bind (attempt (logNonDominated nd)) (fun r => M.bind (collect nd) fun _ =>
    M.bind logRoutineEnd fun _ => M.bind (ofExcept r) fun _ => M.pure (Sum.inr ())) env s := rfl
  rw [he]
  rcases hr : attempt (logNonDominated nd) env s with ⟨e | r, s'⟩
  · rw [hr] at h1
    refine .inr ⟨⟨e, ?_⟩, ?_⟩
    · unfold M.bind; rw [hr]
    · unfold M.bind; rw [hr]; exact h1
  · rw [hr] at h1
    left
    unfold M.bind
    rw [hr]
    dsimp only [collect, modifyS]
    obtain ⟨h2, h3⟩ := logEvent_fine h .routineEnd ({ s' with front := s'.front ++ [nd] } : Slv P C)
    unfold logRoutineEnd
    rcases hr2 : logEvent .routineEnd env ({ s' with front := s'.front ++ [nd] } : Slv P C) with ⟨_ | u, s2⟩
    · rw [hr2] at h2; cases h2
    · rw [hr2] at h3
      dsimp only at h1 h3 ⊢
      have h4 : s2.io.logger = s.io.logger.map (· ++ [.nonDominated nd, .routineEnd]) := by
        rw [h3, h1]
        cases s.io.logger <;> simp
      cases r <;> exact h4

/-- What it logs if the logger may fail. -/
theorem yieldLast_log_any (env : Env) (nd : NonDomPoint Assignment) (s : Slv P C) :
    ∃ u : List LogEvent, (yieldLast nd env s).2.io.logger = s.io.logger.map (· ++ u) ∧
      (u <+: [.nonDominated nd, .routineEnd] ∨ ¬LogFine env ∧ u = [.routineEnd]) := by
  have h1 : (attempt (logNonDominated nd) env s).2.io.logger = s.io.logger.map (· ++ [.nonDominated nd]) ∨ ¬LogFine env ∧
      (attempt (logNonDominated nd) env s).2.io.logger = s.io.logger := by
    rw [attempt_logger]
    exact log_log env _ _ _ _ _ s
  have he : yieldLast nd env s = M.bind (attempt (logNonDominated nd)) (fun r => M.bind (collect nd) fun _ =>
    M.bind logRoutineEnd fun _ => M.bind (ofExcept r) fun _ => M.pure (Sum.inr ())) env s := rfl
  rw [he]
  unfold M.bind
  rcases hr : attempt (logNonDominated nd) env s with ⟨e | r, s'⟩
  · rw [hr] at h1
    rcases h1 with h1 | ⟨-, h1⟩
    · exact ⟨_, h1, .inl ⟨[.routineEnd], rfl⟩⟩
    · exact ⟨[], by dsimp only at h1 ⊢; rw [h1]; cases s.io.logger <;> simp, .inl (List.nil_prefix)⟩
  · rw [hr] at h1
    dsimp only [collect, modifyS] at h1 ⊢
    have h3 := logEvent_log env .routineEnd ({ s' with front := s'.front ++ [nd] } : Slv P C)
    unfold logRoutineEnd
    rcases hr2 : logEvent .routineEnd env ({ s' with front := s'.front ++ [nd] } : Slv P C) with ⟨x | u, s2⟩
    · rw [hr2] at h3
      dsimp only at h3 ⊢
      rcases h3 with h3 | ⟨-, h3⟩
      · rcases h1 with h1 | ⟨hL, h1⟩
        · exact ⟨[.nonDominated nd, .routineEnd], by rw [h3, h1]; cases s.io.logger <;> simp, .inl (List.prefix_refl _)⟩
        · exact ⟨[.routineEnd], by rw [h3, h1], .inr ⟨hL, rfl⟩⟩
      · rcases h1 with h1 | ⟨hL, h1⟩
        · exact ⟨[.nonDominated nd], by rw [h3, h1], .inl ⟨[.routineEnd], rfl⟩⟩
        · exact ⟨[], by rw [h3, h1]; cases s.io.logger <;> simp, .inl (List.nil_prefix)⟩
    · rw [hr2] at h3
      have h4 : ∃ u : List LogEvent, s2.io.logger = s.io.logger.map (· ++ u) ∧
          (u <+: [.nonDominated nd, .routineEnd] ∨ ¬LogFine env ∧ u = [.routineEnd]) := by
        rcases h3 with h3 | ⟨⟨-, _, h3⟩, -⟩
        · dsimp only at h3
          rcases h1 with h1 | ⟨hL, h1⟩
          · exact ⟨[.nonDominated nd, .routineEnd], by rw [h3, h1]; cases s.io.logger <;> simp, .inl (List.prefix_refl _)⟩
          · exact ⟨[.routineEnd], by rw [h3, h1], .inr ⟨hL, rfl⟩⟩
        · cases h3
      cases r <;> exact h4

theorem yieldLast_front (env : Env) (nd : NonDomPoint Assignment) (s : Slv P C) : wp env (yieldLast nd)
    (fun _ s' => s'.front = s.front ++ [nd]) (fun _ s' => s'.front = s.front ∨ s'.front = s.front ++ [nd]) s := by
  unfold yieldLast
  rw [wp_bind]
  refine wp_fs (fs_attempt (fs_log _ _ _ _ _)) (fun _ s2 h2 => ?_) fun _ s' h => .inl h
  unfold collect
  rw [wp_bind, wp_modifyS, wp_bind]
  refine wp_fs (fs_logEvent _) (fun _ s3 h3 => ?_) fun _ s' h => .inr (h.trans (by simp only [h2]))
  have h3 : s3.front = s.front ++ [nd] := h3.trans (by simp only [h2])
  rw [wp_bind]
  refine wp_fs (fs_ofExcept _) (fun _ s4 h4 => ?_) fun _ s' h => .inr (h.trans h3)
  exact h4.trans h3

theorem lasts_yieldLast (nd : NonDomPoint Assignment) : Lasts (P := P) (C := C) (yieldLast nd) fun _ => True :=
  lasts_bind (lasts_attempt (rel_logNonDominated (T := True) nd).lasts (log_lims rfl rfl)) fun r hr =>
    lasts_bind (rel_collect (T := True) nd).lasts fun _ _ => lasts_bind (rel_end (T := True)).lasts fun _ _ =>
      lasts_bind (lasts_ofExcept hr) fun _ _ => lasts_pure _

theorem lg_yieldLast (nd : NonDomPoint Assignment) : LG (P := P) (C := C) (yieldLast nd) :=
  lg_bind (lg_attempt (rel_logNonDominated (T := True) nd).logs) fun _ => lg_bind (lg_of_eq fun _ _ => rfl) fun _ =>
    lg_bind (lg_logEvent _) fun _ => lg_bind (lg_of_eq fun _ _ => rfl) fun _ => lg_of_eq fun _ _ => rfl

theorem rel_yieldLast (nd : NonDomPoint Assignment) : Rel (P := P) (C := C) T (yieldLast nd) (yieldLast nd) := by
  have hp : Rel (P := P) (C := C) T
      (do
        logNonDominated nd
        collect nd
        logRoutineEnd
        M.pure (.inr () : (NonDomPoint Assignment × Assignment) ⊕ Unit))
      (do
        logNonDominated nd
        collect nd
        logRoutineEnd
        M.pure (.inr ())) :=
    rel_bind (rel_logNonDominated nd) fun _ => rel_bind (rel_collect nd) fun _ => rel_bind rel_end fun _ => rel_pure _
  have hok : OkEq (P := P) (C := C) (yieldLast nd) _ := okEq_last nd
  refine ⟨fun env calm E s₁ s₂ S => ?_, fun env s a hs ha => ?_, fun env s t hfl hs h => ?_, lg_yieldLast nd⟩
  · rcases hr : yieldLast nd env s₁ with ⟨e | a, s₁'⟩
    · intro b hb
      dsimp only
      rcases hr2 : yieldLast nd calm s₂ with ⟨e' | b', s₂'⟩
      · rw [hr2] at hb; cases hb
      have f1 := yieldLast_front env nd s₁
      have f2 := yieldLast_front calm nd s₂
      unfold wp at f1 f2
      rw [hr] at f1
      rw [hr2] at f2
      refine ⟨?_, S.time.imp_right fun h => ?_⟩
      · dsimp only at f1 f2 ⊢
        rw [f2, ← S.front]
        rcases f1 with f1 | f1
        · rw [f1]; exact frontPrefix_of_prefix ⟨[nd], rfl⟩
        · rw [f1]; exact frontPrefix_refl _
      · obtain ⟨u, l1, hu⟩ := yieldLast_log_any env nd s₁
        have l2 := yieldLast_log E.logOk nd s₂
        rw [hr] at l1
        rw [hr2] at l2
        dsimp only at l1 l2 ⊢
        rcases l2 with l2 | ⟨⟨_, l2⟩, -⟩
        · rw [l2, ← h.2, l1]
          rcases hu with ⟨v, hu⟩ | ⟨hL, rfl⟩
          · exact LogGrows.before ⟨v, by rw [← hu]; cases s₁.io.logger <;> simp⟩
          · intro m hm
            cases hs : s₁.io.logger with
            | none => rw [hs] at hm; cases hm
            | some l₀ =>
              rw [hs] at hm
              cases hm
              exact ⟨_, rfl, .inr ⟨hL, .lost l₀ [] nd⟩⟩
        · cases l2
    · have h1 := hp.run env calm E s₁ s₂ S
      rw [(hok env s₁ a s₁').1 hr] at h1
      obtain ⟨h2, h3⟩ := h1
      have h4 := (hok calm s₂ a _).2 (Prod.ext h2 rfl)
      rw [h4]
      exact ⟨rfl, h3⟩
  · rcases hr : yieldLast nd env s with ⟨e | a', s'⟩
    · rw [hr] at ha; cases ha
    · have h1 := (hok env s a' s').1 hr
      have h2 := hp.grows env s a' hs (by rw [h1])
      rw [h1] at h2
      exact h2
  · have := lasts_yieldLast nd env s hfl hs
    unfold wp at this
    rcases hr : yieldLast nd env s with ⟨e | a, s'⟩
    · rw [hr] at this h
      exact this t (by cases h; rfl)
    · rw [hr] at h; cases h

/-- The rest of the body after a solution has been logged, `/repo/core/src/algs.rs:712-744`. -/
def yieldRest (done : Bool) (assumps : List Lit) (solution : Assignment) (nd : NonDomPoint Assignment) :
    M P C ((NonDomPoint Assignment × Assignment) ⊕ Unit) :=
  if done then yieldLast nd
  else do
    checkTermination
    blockSolution solution
    let res ← solveAssumps assumps
    if res = .unsat then yieldLast nd
    else do
      checkTermination
      let sol ← oracleSolution
      M.pure (.inl (nd, sol))

theorem rel_yieldRest (done : Bool) (assumps : List Lit) (solution : Assignment) (nd : NonDomPoint Assignment) :
    Rel (P := P) (C := C) T (yieldRest done assumps solution nd) (yieldRest done assumps solution nd) := by
  unfold yieldRest
  refine rel_ite (fun _ => rel_yieldLast _) fun _ => rel_bind rel_checkTermination fun _ => rel_bind (rel_blockSolution _) fun _ => ?_
  refine rel_bind (rel_solveAssumps _) fun res => rel_ite (fun _ => rel_yieldLast _) fun _ => ?_
  exact rel_bind rel_checkTermination fun _ => rel_bind rel_oracleSolution fun _ => rel_pure _

/-- What is done if a solution could not be logged or was the last one, `/repo/core/src/algs.rs:697-711`. -/
def yieldStop (nd : NonDomPoint Assignment) (e : Stop) : M P C ((NonDomPoint Assignment × Assignment) ⊕ Unit) := do
  let ndTerm ← attempt (logNonDominated nd)
  collect nd
  ofExcept ndTerm
  stop e

theorem yieldStop_log (env : Env) (nd : NonDomPoint Assignment) (e : Stop) (s : Slv P C) :
    (yieldStop nd e env s).2.io.logger = s.io.logger.map (· ++ [.nonDominated nd]) ∨
    (yieldStop nd e env s).2.io.logger = s.io.logger := by
  have h1 : (attempt (logNonDominated nd) env s).2.io.logger = s.io.logger.map (· ++ [.nonDominated nd]) ∨
      (attempt (logNonDominated nd) env s).2.io.logger = s.io.logger := by
    rw [attempt_logger]
    exact (log_log env _ _ _ _ _ s).imp id fun h => h.2
  change (M.bind (attempt (logNonDominated nd)) (fun r => M.bind (collect nd) fun _ => M.bind (ofExcept r) fun _ => stop e)
    env s).2.io.logger = _ ∨ (M.bind (attempt (logNonDominated nd)) (fun r => M.bind (collect nd) fun _ =>
      M.bind (ofExcept r) fun _ => stop e) env s).2.io.logger = _
  unfold M.bind
  rcases hr : attempt (logNonDominated nd) env s with ⟨e | r, s'⟩
  · rw [hr] at h1; exact h1
  · rw [hr] at h1
    cases r <;> exact h1

/-- The body in these terms. -/
theorem yieldBody_eq (costs : List Nat) (assumps : List Lit) (st : NonDomPoint Assignment × Assignment) (env : Env)
    (s : Slv P C) : yieldBody costs assumps st env s =
    if env.debug && !(s.k.costsOf st.2 == costs) then (.error .panic, s)
    else
      let solution := st.2.truncate s.k.vm.maxOrigVar
      let nd := st.1.addSol solution
      match attempt logSolution env s with
      | (.error e, s') => (.error e, s')
      | (.ok (.error e), s') => yieldStop nd e env s'
      | (.ok (.ok ()), s') => yieldRest (enumDone s.k.opts.enumeration nd.nSols) assumps solution nd env s' := by
  change M.bind getS (fun s => M.bind (dbg (s.k.costsOf st.2 == costs)) fun _ => M.bind (attempt logSolution) fun r =>
    (match r with
    | .error e => yieldStop _ e
    | .ok () => if enumDone s.k.opts.enumeration (st.1.addSol (st.2.truncate s.k.vm.maxOrigVar)).nSols then yieldLast _
      else do
        checkTermination
        blockSolution (st.2.truncate s.k.vm.maxOrigVar)
        let res ← solveAssumps assumps
        if res = .unsat then yieldLast _
        else do
          checkTermination
          let sol ← oracleSolution
          M.pure (.inl (st.1.addSol (st.2.truncate s.k.vm.maxOrigVar), sol)))) env s = _
  unfold M.bind getS dbg
  dsimp only
  split
  · rename_i h
    split at h
    · cases h
    · rename_i hd
      rw [if_neg hd]
      cases h
      rcases attempt logSolution env s with ⟨e | (e | _), s'⟩ <;> rfl
  · rename_i h
    split at h
    · rename_i hd
      rw [if_pos hd]
      cases h
      rfl
    · cases h

theorem ng_then {c : M P C α} {f : α → M P C β} (hc : NG c) {env : Env} {s : Slv P C} {Q : β → List LogEvent → Prop}
    (hf : ∀ a s', wp env (f a) (fun b s'' => ∃ t u, (∀ r, .nonDominated r ∉ t) ∧ Q b u ∧
      s''.io.logger = s'.io.logger.map (· ++ (t ++ u))) (fun _ _ => True) s') :
    wp env (c >>= f) (fun b s'' => ∃ t u, (∀ r, .nonDominated r ∉ t) ∧ Q b u ∧
      s''.io.logger = s.io.logger.map (· ++ (t ++ u))) (fun _ _ => True) s := by
  rw [wp_bind]
  have h1 := hc env s
  unfold wp at hf ⊢
  rcases hr : c env s with ⟨_ | a, s'⟩
  · trivial
  · rw [hr] at h1
    obtain ⟨t, h1, h2⟩ := h1
    have h3 := hf a s'
    dsimp only
    rcases hr2 : f a env s' with ⟨_ | b, s''⟩
    · trivial
    · rw [hr2] at h3
      obtain ⟨t', u, h4, h5, h6⟩ := h3
      refine ⟨t ++ t', u, fun r hr => (List.mem_append.1 hr).elim (h2 r) (h4 r), h5, ?_⟩
      dsimp only at h1 h6 ⊢
      rw [h6, h1]
      cases s.io.logger <;> simp

/-- What a pass that ends logs after the solution. -/
theorem yieldRest_log {env : Env} (h : LogFine env) (done : Bool) (assumps : List Lit) (solution : Assignment)
    (nd : NonDomPoint Assignment) (s : Slv P C) : wp env (yieldRest done assumps solution nd)
      (fun b s' => ∃ t u, (∀ r, .nonDominated r ∉ t) ∧
        (match b with | .inl st' => st'.1 = nd ∧ u = [] | .inr _ => u = [.nonDominated nd, .routineEnd]) ∧
        s'.io.logger = s.io.logger.map (· ++ (t ++ u))) (fun _ _ => True) s := by
  have hlast : ∀ s : Slv P C, wp env (yieldLast nd)
      (fun b s' => ∃ t u, (∀ r, .nonDominated r ∉ t) ∧
        (match b with | .inl st' => st'.1 = nd ∧ u = [] | .inr _ => u = [.nonDominated nd, .routineEnd]) ∧
        s'.io.logger = s.io.logger.map (· ++ (t ++ u))) (fun _ _ => True) s := by
    intro s
    have h1 := yieldLast_log h nd s
    have h2 : ∀ b s', yieldLast nd env s = (.ok b, s') → b = .inr () := by
      intro b s' hb
      have h3 := (okEq_last nd env s b s').1 hb
      cases b with
      | inr _ => rfl
      | inl st' =>
        exfalso
        change M.bind (logNonDominated nd) (fun _ => M.bind (collect nd) fun _ => M.bind logRoutineEnd fun _ =>
          M.pure (Sum.inr ())) env s = _ at h3
        unfold M.bind at h3
        split at h3
        · dsimp only [collect, modifyS] at h3
          split at h3 <;> cases h3
        · cases h3
    unfold wp
    rcases hr : yieldLast nd env s with ⟨e | b, s'⟩
    · trivial
    · cases h2 b s' hr
      rw [hr] at h1
      rcases h1 with h1 | ⟨⟨_, h1⟩, -⟩
      · exact ⟨[], _, by simp, rfl, h1⟩
      · cases h1
  unfold yieldRest
  split
  · exact hlast s
  · refine ng_then ng_check fun _ s1 => ng_then (ng_blockSolution _) fun _ s2 => ng_then (ng_solveAssumps _) fun res s3 => ?_
    split
    · exact hlast s3
    · refine ng_then ng_check fun _ s4 => ng_then ng_oracleSolution fun sol s5 => ?_
      exact ⟨[], [], by simp, ⟨rfl, rfl⟩, by cases s5.io.logger <;> simp⟩

/-- What a call that ends logs. -/
theorem yieldLoop_log {env : Env} (h : LogFine env) (costs : List Nat) (assumps : List Lit) : ∀ (n : Nat)
    (st : NonDomPoint Assignment × Assignment) (s : Slv P C),
    (loopM (yieldBody costs assumps) n st env s).1 = .ok () →
    ∃ p mid, (loopM (yieldBody costs assumps) n st env s).2.io.logger =
        s.io.logger.map (· ++ (.solution :: mid ++ [.nonDominated p, .routineEnd])) ∧ (∀ r, .nonDominated r ∉ mid) ∧
      (st.1.addSol (st.2.truncate s.k.vm.maxOrigVar)).costs = p.costs ∧
      (st.1.addSol (st.2.truncate s.k.vm.maxOrigVar)).sols <+: p.sols
  | 0, _, _, hd => by cases hd
  | n + 1, st, s, hd => by
    rw [loopM_succ, yieldBody_eq] at hd ⊢
    by_cases hdbg : (env.debug && !(s.k.costsOf st.2 == costs)) = true
    · rw [if_pos hdbg] at hd; cases hd
    rw [if_neg hdbg] at hd ⊢
    dsimp only at hd ⊢
    have hl : (attempt logSolution env s).2.io.logger = _ := (attempt_logger _ env s).trans (log_fine h _ _ _ _ _ s)
    rcases hr : attempt logSolution env s with ⟨e | (e | _), s'⟩
    · rw [hr] at hd; cases hd
    · rw [hr] at hd
      exfalso
      dsimp only at hd
      have hs : ∀ a s'', yieldStop (st.1.addSol (st.2.truncate s.k.vm.maxOrigVar)) e env s' ≠ (.ok a, s'') := by
        intro a s'' hs
        exact fails_bind (fun _ => fails_bind fun _ => fails_bind fun _ _ _ _ _ h => by cases h) env s' a s'' hs
      rcases hr2 : yieldStop (st.1.addSol (st.2.truncate s.k.vm.maxOrigVar)) e env s' with ⟨_ | a, s''⟩
      · rw [hr2] at hd; cases hd
      · exact hs a s'' hr2
    · rw [hr] at hd hl
      dsimp only at hd hl ⊢
      have hrest := yieldRest_log h (enumDone s.k.opts.enumeration (st.1.addSol (st.2.truncate s.k.vm.maxOrigVar)).nSols)
        assumps (st.2.truncate s.k.vm.maxOrigVar) (st.1.addSol (st.2.truncate s.k.vm.maxOrigVar)) s'
      unfold wp at hrest
      rcases hr2 : yieldRest (enumDone s.k.opts.enumeration (st.1.addSol (st.2.truncate s.k.vm.maxOrigVar)).nSols)
        assumps (st.2.truncate s.k.vm.maxOrigVar) (st.1.addSol (st.2.truncate s.k.vm.maxOrigVar)) env s' with ⟨_ | (st' | _), s''⟩
      · rw [hr2] at hd; cases hd
      · rw [hr2] at hd hrest
        obtain ⟨t, u, h1, ⟨h2, rfl⟩, h3⟩ := hrest
        dsimp only at hd h3 ⊢
        obtain ⟨p, mid, h4, h5, h6, h7⟩ := yieldLoop_log h costs assumps n st' s'' hd
        refine ⟨p, t ++ .solution :: mid, ?_, ?_, ?_, ?_⟩
        · rw [h4, h3, hl]
          cases s.io.logger <;> simp
        · intro r hr
          rcases List.mem_append.1 hr with hr | hr
          · exact h1 r hr
          · rcases List.mem_cons.1 hr with hr | hr
            · cases hr
            · exact h5 r hr
        · rw [← h6, addSol_costs st'.1, h2]
        · rw [← h2]
          exact (addSol_sols _ _).trans h7
      · rw [hr2] at hrest
        obtain ⟨t, u, h1, rfl, h3⟩ := hrest
        refine ⟨_, t, ?_, h1, rfl, List.prefix_refl _⟩
        dsimp only at h3 ⊢
        rw [h3, hl]
        cases s.io.logger <;> simp

theorem lg_yieldBody (costs : List Nat) (assumps : List Lit) (st : NonDomPoint Assignment × Assignment) :
    LG (P := P) (C := C) (yieldBody costs assumps st) := by
  intro env s
  rw [yieldBody_eq]
  split
  · exact logGrows_refl _
  · have h := lg_attempt (rel_logSolution (P := P) (C := C) (T := True)).logs env s
    dsimp only
    rcases hr : attempt logSolution env s with ⟨e | (e | _), s'⟩
    · rw [hr] at h; exact h
    · rw [hr] at h
      exact h.trans (lg_bind (lg_attempt (rel_logNonDominated (T := True) _).logs) (fun _ => lg_bind (lg_of_eq fun _ _ => rfl)
        fun _ => lg_bind (lg_of_eq fun _ _ => rfl) fun _ => lg_of_eq fun _ _ => rfl) env s')
    · rw [hr] at h
      exact h.trans ((rel_yieldRest (T := True) _ _ _ _).logs env s')

theorem lg_loop {b : α → M P C (α ⊕ β)} (h : ∀ a, LG (b a)) : ∀ (n : Nat) (a : α), LG (loopM b n a)
  | 0, _ => lg_of_eq fun _ _ => rfl
  | n + 1, a => lg_bind (h a) fun r => (match r with
    | .inl a' => lg_loop h n a'
    | .inr _ => lg_of_eq fun _ _ => rfl)

/-- The log if the body of the loop stops. -/
theorem yieldBody_cut {env calm : Env} (E : SameSolver T env calm) {costs : List Nat} {assumps : List Lit} {m : Nat}
    {st : NonDomPoint Assignment × Assignment} {s₁ s₂ s₁' : Slv P C} {e : Stop} (S : SameState T s₁ s₂)
    (hl : s₁.io.logger = s₂.io.logger) (hT : ¬T) (hr : yieldBody costs assumps st env s₁ = (.error e, s₁'))
    (hok : (loopM (yieldBody costs assumps) (m + 1) st calm s₂).1 = .ok ()) :
    LogBefore (LogFine env) s₁'.io.logger (loopM (yieldBody costs assumps) (m + 1) st calm s₂).2.io.logger := by
  obtain ⟨p, mid, h1, h2, h3, h4⟩ := yieldLoop_log E.logOk costs assumps (m + 1) st s₂ hok
  rw [yieldBody_eq] at hr
  split at hr
  · cases hr
    rw [hl]
    exact (lg_loop (lg_yieldBody costs assumps) _ _ calm s₂).before
  dsimp only at hr
  have hsol : (attempt logSolution env s₁).2.io.logger = s₁.io.logger.map (· ++ [.solution]) ∨
      (attempt logSolution env s₁).2.io.logger = s₁.io.logger := by
    rw [attempt_logger]
    exact (log_log env _ _ _ _ _ s₁).imp id fun h => h.2
  have hpre : ∀ o : Option (List LogEvent), o = s₁.io.logger.map (· ++ [.solution]) ∨ o = s₁.io.logger →
      LogBefore (LogFine env) o (loopM (yieldBody costs assumps) (m + 1) st calm s₂).2.io.logger := by
    intro o ho
    rw [h1, ← hl]
    rcases ho with rfl | rfl
    · exact LogGrows.before ⟨mid ++ [.nonDominated p, .routineEnd], by cases s₁.io.logger <;> simp⟩
    · exact LogGrows.before ⟨_, rfl⟩
  rcases ha : attempt logSolution env s₁ with ⟨e' | (e' | _), s'⟩
  · rw [ha] at hr hsol
    cases hr
    exact hpre _ hsol
  · rw [ha] at hr hsol
    dsimp only at hr hsol
    have h5 := yieldStop_log env (st.1.addSol (st.2.truncate s₁.k.vm.maxOrigVar)) e' s'
    rw [hr] at h5
    dsimp only at h5
    rcases h5 with h5 | h5
    · rw [h5, h1]
      intro l hl'
      rw [S.k] at hl'
      have hnd : ∀ r, LogEvent.nonDominated r ∉ .solution :: mid := fun r hr => by
        rcases List.mem_cons.1 hr with hr | hr
        · cases hr
        · exact h2 r hr
      rw [← hl]
      cases hs : s₁.io.logger with
      | none => rcases hsol with hsol | hsol <;> · rw [hsol, hs] at hl'; cases hl'
      | some l₀ =>
        refine ⟨_, rfl, .inl ?_⟩
        rcases hsol with hsol | hsol
        · rw [hsol, hs] at hl'
          cases hl'
          have := LogPrefix.last (l₀ ++ [.solution]) mid [.routineEnd] _ p h2 h3 h4
          simpa using this
        · rw [hsol, hs] at hl'
          cases hl'
          have := LogPrefix.last l₀ (.solution :: mid) [.routineEnd] _ p hnd h3 h4
          simpa using this
    · rw [h5]
      exact hpre _ hsol
  · rw [ha] at hr
    dsimp only at hr
    have ha' : logSolution env s₁ = (.ok (), s') := by
      unfold attempt at ha
      rcases hx : logSolution env s₁ with ⟨x | _, y⟩
      · rw [hx] at ha; cases x <;> cases ha
      · rw [hx] at ha; cases ha; rfl
    have hrun := rel_logSolution.run env calm E s₁ s₂ S
    rw [ha'] at hrun
    rcases hc : logSolution calm s₂ with ⟨x | _, s''⟩
    · rw [hc] at hrun; cases hrun.1
    rw [hc] at hrun
    have hrest := (rel_yieldRest (enumDone s₁.k.opts.enumeration (st.1.addSol (st.2.truncate s₁.k.vm.maxOrigVar)).nSols)
        assumps (st.2.truncate s₁.k.vm.maxOrigVar) (st.1.addSol (st.2.truncate s₁.k.vm.maxOrigVar))).run env calm E s' s'' hrun.2
    rw [hr] at hrest
    have hdbg : ¬(calm.debug && !(s₂.k.costsOf st.2 == costs)) := by rw [← E.debug, ← S.k]; assumption
    have hca : attempt logSolution calm s₂ = (.ok (.ok ()), s'') := by unfold attempt; rw [hc]
    rw [loopM_succ, yieldBody_eq, if_neg hdbg] at hok ⊢
    dsimp only at hok ⊢
    rw [hca] at hok ⊢
    dsimp only at hok ⊢
    rw [S.k] at hrest
    rcases hy : yieldRest (enumDone s₂.k.opts.enumeration (st.1.addSol (st.2.truncate s₂.k.vm.maxOrigVar)).nSols)
        assumps (st.2.truncate s₂.k.vm.maxOrigVar) (st.1.addSol (st.2.truncate s₂.k.vm.maxOrigVar)) calm s'' with ⟨x | b, s3⟩
    · rw [hy] at hok; cases hok
    rw [hy] at hrest hok
    have hcut := (hrest b rfl).2.resolve_left hT
    cases b with
    | inl st' => exact hcut.trans_grows (lg_loop (lg_yieldBody costs assumps) m st' calm s3)
    | inr _ => exact hcut

theorem rel_yieldLoop (costs : List Nat) (assumps : List Lit) {n₁ n₂ : Nat} (hn : n₁ ≤ n₂)
    (st : NonDomPoint Assignment × Assignment) :
    Rel (P := P) (C := C) T (loopM (yieldBody costs assumps) n₁ st) (loopM (yieldBody costs assumps) n₂ st) := by
  have hg : ∀ env (s : Slv P C) a, s.io.lims = Limits.none → (loopM (yieldBody costs assumps) n₂ st env s).1 = .ok a →
      s.front <+: (loopM (yieldBody costs assumps) n₂ st env s).2.front ∧
        (loopM (yieldBody costs assumps) n₂ st env s).2.io.lims = Limits.none := by
    intro env s a hs ha
    refine ⟨?_, ?_⟩
    · obtain ⟨p, h1, -, -⟩ := yieldLoop_front env costs assumps n₂ st s ha
      rw [h1]
      exact ⟨[p], rfl⟩
    · clear hn
      induction n₂ generalizing st s with
      | zero => cases ha
      | succ n ih =>
        rw [loopM_succ] at ha ⊢
        rcases hr : yieldBody costs assumps st env s with ⟨e | r, s'⟩
        · rw [hr] at ha; cases ha
        · have hp := (okEq_yield costs assumps st env s r s').1 hr
          have hl := ((rel_yieldPlain (T := True) costs assumps st).grows env s r hs (by rw [hp])).2
          rw [hp] at hl
          cases r with
          | inl st' => rw [hr] at ha; exact ih st' s' hl ha
          | inr _ => exact hl
  refine ⟨fun env calm E s₁ s₂ S => ?_, hg, fun env s t hfl hs => ?_, lg_loop (lg_yieldBody costs assumps) n₂ st⟩
  rotate_left
  · have := lasts_loop (lasts_yieldBody costs assumps) n₂ st env s hfl hs
    unfold wp at this
    intro h
    rcases hr : loopM (yieldBody costs assumps) n₂ st env s with ⟨e | a, s'⟩
    · rw [hr] at this h
      exact this t (by cases h; rfl)
    · rw [hr] at h; cases h
  clear hg
  induction n₁ generalizing n₂ st s₁ s₂ with
  | zero =>
    intro b hb
    obtain ⟨p, h1, -, -⟩ := yieldLoop_front calm costs assumps n₂ st s₂ hb
    exact S.cut rfl rfl (by rw [h1]; exact ⟨[p], rfl⟩) (lg_loop (lg_yieldBody costs assumps) n₂ st calm s₂)
  | succ n ih =>
    have hend := yieldLoop_front calm costs assumps n₂ st s₂
    obtain ⟨m, rfl⟩ : ∃ m, n₂ = m + 1 := ⟨n₂ - 1, by omega⟩
    have hcut := fun e s₁' hl hT hr => yieldBody_cut (m := m) (costs := costs) (assumps := assumps) (st := st) (e := e)
      (s₁' := s₁') E S hl hT hr
    rw [loopM_succ] at hcut
    rw [loopM_succ] at hend
    rw [loopM_succ, loopM_succ]
    have hb := yieldBody_front env costs assumps st s₁
    unfold wp at hb
    rcases hr : yieldBody costs assumps st env s₁ with ⟨e | r, s₁'⟩
    · rw [hr] at hb
      intro b hok
      obtain ⟨p, h1, h2, h3⟩ := hend hok
      refine ⟨?_, (Classical.em T).imp_right fun hT => hcut e s₁' (S.time.resolve_left hT).2 hT hr hok⟩
      rw [h1, ← S.front]
      rcases hb with hb | hb
      · rw [hb]; exact frontPrefix_of_prefix ⟨[p], rfl⟩
      · rw [hb]
        refine frontPrefix_last _ [] (by rw [h2, addSol_costs]) ?_
        rw [S.k]
        exact h3
    · have hp := (okEq_yield costs assumps st env s₁ r s₁').1 hr
      have hrun := (rel_yieldPlain costs assumps st).run env calm E s₁ s₂ S
      rw [hp] at hrun
      rcases hp2 : yieldPlain costs assumps st calm s₂ with ⟨e | r', s₂'⟩
      · rw [hp2] at hrun; cases hrun.1
      · rw [hp2] at hrun
        obtain ⟨h1, h2⟩ := hrun
        cases h1
        rw [(okEq_yield costs assumps st calm s₂ r s₂').2 hp2]
        cases r with
        | inl st' => exact ih (by omega) st' s₁' s₂' h2
        | inr _ => exact ⟨rfl, h2⟩

theorem rel_yieldSolutions {n₁ n₂ : Nat} (hn : n₁ ≤ n₂) (costs : List Nat) (assumps : List Lit) (sol : Assignment) :
    Rel (P := P) (C := C) T (yieldSolutions n₁ costs assumps sol) (yieldSolutions n₂ costs assumps sol) := by
  unfold yieldSolutions
  refine rel_getS fun k io₁ io₂ encs front fence hst => ?_
  simp only [hst]
  exact rel_bind (rel_dbg _) fun _ => rel_bind (rel_start _) fun _ => rel_bind rel_unphaseSolution fun _ =>
    rel_bind (rel_externalize _) fun _ => rel_yieldLoop _ _ hn _

/-! ## Encodings and linear search -/

variable [UbEnc P] [UbEnc C]

theorem rel_encAt (i : Nat) : Rel (P := P) (C := C) T (encAt i) (encAt i) := by
  unfold encAt; rel_auto

theorem rel_extendEncoding (i lo hi : Nat) : Rel (P := P) (C := C) T (extendEncoding i lo hi) (extendEncoding i lo hi) := by
  unfold extendEncoding
  refine rel_getS fun k io₁ io₂ encs front fence hst => rel_bind (rel_encAt i) fun e => ?_
  dsimp only
  rel_auto

theorem rel_linsuBody (oi ei : Nat) (base : List Lit) (lb : Nat) (st : Nat × Option Assignment) :
    Rel (P := P) (C := C) T (linsuBody oi ei base lb st) (linsuBody oi ei base lb st) := by
  unfold linsuBody
  refine rel_ite (fun _ => ?_) fun _ => rel_pure _
  refine rel_bind (rel_extendEncoding _ _ _) fun _ => rel_bind (rel_encAt _) fun e => rel_bind (rel_unwrap _) fun ls => ?_
  refine rel_bind (rel_solveAssumps _) fun res => ?_
  cases res with
  | sat =>
    refine rel_bind rel_oracleSolution fun sol => rel_bind (rel_getCost _ _) fun c => rel_bind (rel_dbg _) fun _ => ?_
    exact rel_getS fun k io₁ io₂ encs front fence hst => rel_bind (rel_logCandidate _ _) fun _ => rel_pure _
  | unsat => exact rel_pure _
  | interrupted => exact rel_stop _

theorem rel_linsuFinish (ei : Nat) (base : List Lit) (st : Nat × Option Assignment) :
    Rel (P := P) (C := C) T (linsuFinish ei base st) (linsuFinish ei base st) := by
  unfold linsuFinish
  cases st.2 with
  | some sol => exact rel_bind rel_end fun _ => rel_pure _
  | none =>
    refine rel_bind (rel_extendEncoding _ _ _) fun _ => rel_bind (rel_encAt _) fun e => rel_bind (rel_unwrap _) fun ls => ?_
    exact rel_bind (rel_solveAssumps _) fun res => rel_bind (rel_dbg _) fun _ => rel_bind rel_oracleSolution fun _ =>
      rel_bind rel_end fun _ => rel_pure _

theorem rel_linsu {n₁ n₂ : Nat} (hn : n₁ ≤ n₂) (oi ei : Nat) (base : List Lit) (ub : Option (Nat × Option Assignment))
    (lb : Option Nat) : Rel (P := P) (C := C) T (linsu n₁ oi ei base ub lb) (linsu n₂ oi ei base ub lb) := by
  have hl : ∀ st, Rel (P := P) (C := C) T
      (do
        let st ← loopM (linsuBody oi ei base (lb.getD 0)) n₁ st
        let r ← linsuFinish ei base st
        M.pure (some r))
      (do
        let st ← loopM (linsuBody oi ei base (lb.getD 0)) n₂ st
        let r ← linsuFinish ei base st
        M.pure (some r)) := fun st =>
    rel_bind (rel_loop (rel_linsuBody _ _ _ _) hn _) fun _ => rel_bind (rel_linsuFinish _ _ _) fun _ => rel_pure _
  unfold linsu
  refine rel_bind (rel_start _) fun _ => ?_
  cases ub with
  | some b => exact hl b
  | none =>
    refine rel_bind (rel_solveAssumps _) fun res => rel_ite (fun _ => rel_bind rel_end fun _ => rel_pure _) fun _ => ?_
    exact rel_bind rel_oracleSolution fun sol => rel_bind (rel_getCostTight _ _ _) fun r => hl _

theorem rel_linsuYield {n₁ n₂ : Nat} (hn : n₁ ≤ n₂) (oi ei : Nat) (base : List Lit) (ub : Option (Nat × Option Assignment))
    (lb : Option Nat) : Rel (P := P) (C := C) T (linsuYield n₁ oi ei base ub lb) (linsuYield n₂ oi ei base ub lb) := by
  unfold linsuYield
  refine rel_bind (rel_linsu hn _ _ _ _ _) fun r => ?_
  cases r with
  | none => exact rel_pure _
  | some p =>
    refine rel_getS fun k io₁ io₂ encs front fence hst => rel_bind (rel_dbg _) fun _ => ?_
    exact rel_bind (rel_extendEncoding _ _ _) fun _ => rel_bind (rel_encAt _) fun e => rel_bind (rel_unwrap _) fun ls =>
      rel_bind (rel_yieldSolutions hn _ _ _) fun _ => rel_pure _

theorem rel_resetOracle (b : Bool) : Rel (P := P) (C := C) T (resetOracle b) (resetOracle b) := by
  unfold resetOracle
  refine rel_getS fun k io₁ io₂ encs front fence hst => rel_ite (fun _ => ?_) fun _ => rel_stop _
  refine rel_bind (rel_start _) fun _ => ?_
  refine rel_ite (fun _ => ?_) fun _ => rel_bind (rel_unwrap _) fun _ => ?_
  all_goals
    refine rel_bind (rel_pure _) fun _ => rel_bind (rel_unwrap _) fun _ => rel_bind ?_ fun _ => rel_end
    rel_auto

/-! ## P-minimal -/

theorem rel_domBlockLoop : ∀ (cs : List Nat) (i : Nat) (cl : Clause),
    Rel (P := P) (C := C) T (domBlockLoop i cs cl) (domBlockLoop i cs cl)
  | [], _, _ => rel_pure _
  | c :: cs, i, cl => by
    have ih := rel_domBlockLoop cs
    unfold domBlockLoop
    refine rel_bind (rel_encAt _) fun e => rel_ite (fun _ => ih _ _) fun _ => rel_ite (fun _ => ih _ _) fun _ => ?_
    refine rel_bind (rel_extendEncoding _ _ _) fun _ => rel_bind (rel_encAt _) fun e => rel_bind (rel_orErr _) fun ls => ?_
    have hmany : ∀ ls : List Lit, Rel (P := P) (C := C) T
        (do
          dbg (!ls.isEmpty)
          let v ← freshVar
          addClauses (litImplCube (Lit.pos v) ls)
          domBlockLoop (i + 1) cs (cl ++ [Lit.pos v]))
        (do
          dbg (!ls.isEmpty)
          let v ← freshVar
          addClauses (litImplCube (Lit.pos v) ls)
          domBlockLoop (i + 1) cs (cl ++ [Lit.pos v])) := fun ls =>
      rel_bind (rel_dbg _) fun _ => rel_bind rel_freshVar fun v => rel_bind (rel_addClauses _) fun _ => ih _ _
    match ls with
    | [] => exact hmany []
    | [l] => exact ih _ _
    | a :: b :: ls => exact hmany (a :: b :: ls)

theorem rel_dominatedBlockClause (costs : List Nat) :
    Rel (P := P) (C := C) T (dominatedBlockClause costs) (dominatedBlockClause costs) := by
  unfold dominatedBlockClause
  exact rel_getS fun k io₁ io₂ encs front fence hst => rel_bind (rel_dbg _) fun _ => rel_domBlockLoop _ _ _

theorem rel_tmpBlockDominated (costs : List Nat) :
    Rel (P := P) (C := C) T (tmpBlockDominated costs) (tmpBlockDominated costs) := by
  unfold tmpBlockDominated
  refine rel_getS fun k io₁ io₂ encs front fence hst => ?_
  simp only [hst]
  exact rel_bind (rel_dbg _) fun _ => rel_bind (rel_dominatedBlockClause _) fun _ => rel_bind rel_freshVar fun _ =>
    rel_bind (rel_addClause _) fun _ => rel_pure _

theorem rel_enforceDomEncode : ∀ (cs : List Nat) (i : Nat), Rel (P := P) (C := C) T (enforceDomEncode i cs) (enforceDomEncode i cs)
  | [], _ => rel_pure _
  | c :: cs, i => by
    unfold enforceDomEncode
    exact rel_bind (rel_extendEncoding _ _ _) fun _ => rel_enforceDomEncode cs (i + 1)

theorem rel_enforceDomLits : ∀ (cs : List Nat) (i : Nat), Rel (P := P) (C := C) T (enforceDomLits i cs) (enforceDomLits i cs)
  | [], _ => rel_pure _
  | c :: cs, i => by
    unfold enforceDomLits
    exact rel_bind (rel_encAt _) fun _ => rel_bind (rel_unwrap _) fun _ => rel_bind (rel_enforceDomLits cs (i + 1)) fun _ => rel_pure _

theorem rel_enforceDominating (costs : List Nat) :
    Rel (P := P) (C := C) T (enforceDominating costs) (enforceDominating costs) := by
  unfold enforceDominating
  refine rel_getS fun k io₁ io₂ encs front fence hst => ?_
  simp only [hst]
  exact rel_bind (rel_dbg _) fun _ => rel_bind (rel_enforceDomEncode _ _) fun _ => rel_enforceDomLits _ _

theorem rel_commitBlock (o : Option Lit) : Rel (P := P) (C := C) T (commitBlock o) (commitBlock o) := by
  cases o
  · exact rel_pure _
  · exact rel_addClause _

theorem rel_pminBlock (base : List Lit) (costs : List Nat) (bs : Option Lit) :
    Rel (P := P) (C := C) T (pminBlock base costs bs) (pminBlock base costs bs) := by
  unfold pminBlock
  refine rel_getS fun k io₁ io₂ encs front fence hst => rel_ite (fun _ => ?_) fun _ => ?_
  · exact rel_bind (rel_dominatedBlockClause _) fun _ => rel_bind (rel_addClause _) fun _ => rel_pure _
  · exact rel_bind (rel_commitBlock _) fun _ => rel_bind (rel_tmpBlockDominated _) fun _ => rel_pure _

theorem rel_pminBody (base : List Lit) (st : PMinState) : Rel (P := P) (C := C) T (pminBody base st) (pminBody base st) := by
  unfold pminBody
  refine rel_bind (rel_pminBlock _ _ _) fun r => rel_bind (rel_enforceDominating _) fun dom => ?_
  refine rel_bind (rel_solveAssumps _) fun res => rel_ite (fun _ => rel_bind rel_end fun _ => rel_pure _) fun _ => ?_
  refine rel_bind rel_checkTermination fun _ => rel_getS fun k io₁ io₂ encs front fence hst => ?_
  exact rel_bind (rel_getSolutionAndCosts _) fun r => rel_bind (rel_logCandidate _ _) fun _ =>
    rel_bind rel_checkTermination fun _ => rel_pure _

theorem rel_pMinimization {n₁ n₂ : Nat} (hn : n₁ ≤ n₂) (costs : List Nat) (sol : Assignment) (base : List Lit) :
    Rel (P := P) (C := C) T (pMinimization n₁ costs sol base) (pMinimization n₂ costs sol base) := by
  unfold pMinimization
  refine rel_getS fun k io₁ io₂ encs front fence hst => ?_
  simp only [hst]
  exact rel_bind (rel_dbg _) fun _ => rel_bind (rel_start _) fun _ => rel_loop (rel_pminBody _) hn _

theorem rel_harvestBody {n₁ n₂ : Nat} (hn : n₁ ≤ n₂) (assumps base : List Lit) (u : Unit) :
    Rel (P := P) (C := C) T (harvestBody n₁ assumps base u) (harvestBody n₂ assumps base u) := by
  unfold harvestBody
  refine rel_bind (rel_solveAssumps _) fun res => rel_ite (fun _ => rel_bind rel_end fun _ => rel_pure _) fun _ => ?_
  refine rel_bind rel_checkTermination fun _ => rel_getS fun k io₁ io₂ encs front fence hst => ?_
  refine rel_bind (rel_getSolutionAndCosts _) fun r => rel_bind (rel_logCandidate _ _) fun _ =>
    rel_bind rel_checkTermination fun _ => rel_bind (rel_pMinimization hn _ _ _) fun r => ?_
  exact rel_bind (rel_enforceDominating _) fun _ => rel_bind (rel_yieldSolutions hn _ _ _) fun _ =>
    rel_bind (rel_commitBlock _) fun _ => rel_pure _

theorem rel_pminMain {n₁ n₂ : Nat} (hn : n₁ ≤ n₂) : Rel (P := P) (C := C) T (pminMain n₁) (pminMain n₂) := by
  unfold pminMain
  refine rel_getS fun k io₁ io₂ encs front fence hst => ?_
  simp only [hst]
  exact rel_bind (rel_dbg _) fun _ => rel_bind (rel_start _) fun _ => rel_loop (rel_harvestBody hn _ _) hn _

/-! ## Lower-bounding -/

theorem rel_updateFenceLoop : ∀ (core : List Lit) (found : List Bool),
    Rel (P := P) (C := C) T (updateFenceLoop core found) (updateFenceLoop core found)
  | [], _ => rel_pure _
  | l :: core, found => by
    have ih := rel_updateFenceLoop core
    unfold updateFenceLoop
    refine rel_getS fun k io₁ io₂ encs front fence hst => ?_
    dsimp only
    cases fenceMatch l found fence 0 with
    | none => exact ih _
    | some i =>
      refine rel_bind (rel_unwrap _) fun p => rel_bind (rel_encAt _) fun e => rel_bind (rel_unwrap _) fun b => ?_
      refine rel_bind (rel_extendEncoding _ _ _) fun _ => rel_bind (rel_encAt _) fun e => rel_bind (rel_unwrap _) fun ls => ?_
      refine rel_bind ?_ fun _ => ih _
      rel_auto

theorem rel_updateFence (core : List Lit) : Rel (P := P) (C := C) T (updateFence core) (updateFence core) := by
  unfold updateFence
  exact rel_getS fun k io₁ io₂ encs front fence hst => rel_bind (rel_updateFenceLoop _ _) fun _ =>
    rel_getS fun k io₁ io₂ encs front fence hst => rel_logEvent _

theorem rel_harvest {n₁ n₂ : Nat} (hn : n₁ ≤ n₂) (base : List Lit) : Rel (P := P) (C := C) T (harvest n₁ base) (harvest n₂ base) := by
  unfold harvest
  refine rel_getS fun k io₁ io₂ encs front fence hst => ?_
  simp only [hst]
  exact rel_bind (rel_dbg _) fun _ => rel_bind (rel_start _) fun _ => rel_loop (rel_harvestBody hn _ _) hn _

theorem rel_initFenceLoop : ∀ (n i : Nat), Rel (P := P) (C := C) T (initFenceLoop i n) (initFenceLoop i n)
  | 0, _ => rel_pure _
  | n + 1, i => by
    unfold initFenceLoop
    refine rel_bind (rel_encAt _) fun e => rel_bind (rel_extendEncoding _ _ _) fun _ => rel_bind (rel_encAt _) fun e => ?_
    refine rel_bind (rel_unwrap _) fun ls => rel_bind ?_ fun _ => rel_initFenceLoop n (i + 1)
    rel_auto

theorem rel_initFence : Rel (P := P) (C := C) T initFence initFence := by
  unfold initFence
  exact rel_getS fun k io₁ io₂ encs front fence hst => rel_ite (fun _ => rel_initFenceLoop _ _) fun _ => rel_pure _

theorem rel_lbBody {n₁ n₂ : Nat} (hn : n₁ ≤ n₂) (u : Unit) : Rel (P := P) (C := C) T (lbBody n₁ u) (lbBody n₂ u) := by
  unfold lbBody
  refine rel_getS fun k io₁ io₂ encs front fence hst => rel_bind (rel_solveAssumps _) fun res => ?_
  cases res with
  | sat => exact rel_bind (rel_harvest hn _) fun _ => rel_pure _
  | unsat =>
    refine rel_bind rel_oracleCore fun core => rel_ite (fun _ => rel_bind rel_end fun _ => rel_pure _) fun _ => ?_
    exact rel_getS fun k io₁ io₂ encs front fence hst => rel_bind (rel_updateFence _) fun _ =>
      rel_getS fun k io₁ io₂ encs front fence hst => rel_bind (rel_dbg _) fun _ => rel_pure _
  | interrupted => exact rel_stop _

theorem rel_lbMain {n₁ n₂ : Nat} (hn : n₁ ≤ n₂) : Rel (P := P) (C := C) T (lbMain n₁) (lbMain n₂) := by
  unfold lbMain
  refine rel_getS fun k io₁ io₂ encs front fence hst => ?_
  simp only [hst]
  exact rel_bind (rel_dbg _) fun _ => rel_bind (rel_start _) fun _ => rel_bind rel_initFence fun _ =>
    rel_loop (rel_lbBody hn) hn _

/-! ## BiOptSat -/

theorem rel_bosNext (incObj : Nat) (base : List Lit) (incCost decCost : Nat) :
    Rel (P := P) (C := C) T (bosNext incObj base incCost decCost) (bosNext incObj base incCost decCost) := by
  unfold bosNext
  refine rel_bind (rel_extendEncoding _ _ _) fun _ => rel_bind (rel_encAt _) fun e => rel_bind (rel_orErr _) fun ls => ?_
  refine rel_bind (rel_addClauses _) fun _ => rel_bind (rel_solveAssumps _) fun res => ?_
  cases res with
  | sat => exact rel_bind rel_oracleSolution fun _ => rel_bind (rel_getCostTight _ _ _) fun _ => rel_pure _
  | unsat => exact rel_bind rel_end fun _ => rel_pure _
  | interrupted => exact rel_stop _

theorem rel_bosBody {n₁ n₂ : Nat} (hn : n₁ ≤ n₂) (incObj decObj : Nat) (base : List Lit) (decLb : Nat)
    (lookup : Nat → Option Nat) (st : BosState) :
    Rel (P := P) (C := C) T (bosBody n₁ incObj decObj base decLb lookup st) (bosBody n₂ incObj decObj base decLb lookup st) := by
  unfold bosBody
  refine rel_bind (rel_linsu hn _ _ _ _ _) fun r => ?_
  cases r with
  | none => exact rel_bind rel_end fun _ => rel_pure _
  | some p =>
    refine rel_bind (rel_getCost _ _) fun d => ?_
    have hend : ∀ c, Rel (P := P) (C := C) T
        (if c ≤ decLb then do logRoutineEnd; M.pure (.inr ()) else bosNext incObj base p.1 c)
        (if c ≤ decLb then do logRoutineEnd; M.pure (.inr ()) else bosNext incObj base p.1 c) := fun c =>
      rel_ite (fun _ => rel_bind rel_end fun _ => rel_pure _) fun _ => rel_bosNext _ _ _ _
    refine rel_bind ?_ hend
    cases lookup p.1 with
    | some x => exact rel_pure _
    | none =>
      exact rel_bind (rel_extendEncoding _ _ _) fun _ => rel_bind (rel_encAt _) fun e => rel_bind (rel_unwrap _) fun ls =>
        rel_bind (rel_linsuYield hn _ _ _ _ _) fun _ => rel_bind (rel_unwrap _) fun _ => rel_pure _

theorem rel_bioptsat {n₁ n₂ : Nat} (hn : n₁ ≤ n₂) (incObj decObj : Nat) (base : List Lit) (start : Option (Nat × Assignment))
    (incLb decLb : Option Nat) (lookup : Nat → Option Nat) :
    Rel (P := P) (C := C) T (bioptsat n₁ incObj decObj base start incLb decLb lookup)
      (bioptsat n₂ incObj decObj base start incLb decLb lookup) := by
  unfold bioptsat
  refine rel_bind (rel_start _) fun _ => rel_getS fun k io₁ io₂ encs front fence hst => rel_bind (rel_dbg _) fun _ => ?_
  refine rel_bind (rel_encAt _) fun e0 => rel_bind (rel_encAt _) fun e1 => ?_
  dsimp only
  cases start with
  | some b => exact rel_loop (rel_bosBody hn _ _ _ _ _) hn _
  | none =>
    refine rel_bind (rel_solveAssumps _) fun res => rel_ite (fun _ => rel_pure _) fun _ => ?_
    exact rel_bind rel_oracleSolution fun _ => rel_bind (rel_getCostTight _ _ _) fun _ => rel_loop (rel_bosBody hn _ _ _ _ _) hn _

/-! ## Core-guided search -/

section Cores

variable {D : Type} [TotDb D]

theorem rel_insert (i : Inactives) (l : Lit) (w : Nat) : Rel (P := P) (C := C) T (i.insert l w) (i.insert l w) := by
  unfold Inactives.insert
  cases i with
  | weighted m => exact rel_pure _
  | unweighted lits active => exact rel_bind (rel_dbg _) fun _ => rel_pure _
  | constant => exact rel_stop _

theorem rel_relax (i : Inactives) (l : Lit) (w : Nat) : Rel (P := P) (C := C) T (i.relax l w) (i.relax l w) := by
  unfold Inactives.relax
  cases i with
  | weighted m =>
    dsimp only
    cases mapGet l m with
    | some lw => exact rel_ite (fun _ => rel_stop _) fun _ => rel_pure _
    | none => exact rel_stop _
  | unweighted lits active => exact rel_bind (rel_dbg _) fun _ => rel_pure _
  | constant => exact rel_stop _

theorem rel_ollPrepare (i : Inactives) (rest : List Lit) : Rel (P := P) (C := C) T (ollPrepare i rest) (ollPrepare i rest) := by
  unfold ollPrepare
  cases i with
  | weighted m => exact rel_bind (rel_unwrap _) fun _ => rel_pure _
  | unweighted lits active => exact rel_pure _
  | constant => exact rel_stop _

theorem rel_setConflLimit (b : Bool) : Rel (P := P) (C := C) T (setConflLimit b) (setConflLimit b) := by
  unfold setConflLimit; rel_auto

theorem rel_buildOutput (d : D) (root oidx : Nat) : Rel (P := P) (C := C) T (buildOutput d root oidx) (buildOutput d root oidx) := by
  unfold buildOutput
  refine rel_getS fun k io₁ io₂ encs front fence hst => ?_
  dsimp only
  refine rel_bind ?_ fun _ => rel_pure _
  rel_auto

theorem rel_exhaustLoop (root : Nat) (base : List Lit) : ∀ (g bound : Nat) (olit : Lit) (d : D),
    Rel (P := P) (C := C) T (exhaustLoop root base g bound olit d) (exhaustLoop root base g bound olit d)
  | 0, _, _, _ => rel_pure _
  | g + 1, bound, olit, d => by
    unfold exhaustLoop
    exact rel_bind (rel_buildOutput _ _ _) fun r => rel_bind (rel_setConflLimit _) fun _ =>
      rel_bind (rel_solveAssumps _) fun res => rel_ite (fun _ => rel_pure _) fun _ => rel_exhaustLoop root base g _ _ _

theorem rel_exhaustCore (root : Nat) (base : List Lit) (d : D) :
    Rel (P := P) (C := C) T (exhaustCore root base d) (exhaustCore root base d) := by
  unfold exhaustCore
  refine rel_getS fun k io₁ io₂ encs front fence hst => rel_ite (fun _ => ?_) fun _ => ?_
  · exact rel_bind (rel_buildOutput _ _ _) fun r => rel_pure _
  · exact rel_bind (rel_start _) fun _ => rel_bind (rel_dbg _) fun _ => rel_bind (rel_exhaustLoop _ _ _ _ _ _) fun r =>
      rel_bind (rel_setConflLimit _) fun _ => rel_bind rel_end fun _ => rel_pure _

theorem rel_minimizeLoop (base : List Lit) : ∀ (xs core : List Lit),
    Rel (P := P) (C := C) T (minimizeLoop base xs core) (minimizeLoop base xs core)
  | [], _ => rel_pure _
  | x :: xs, core => by
    unfold minimizeLoop
    exact rel_bind (rel_solveAssumps _) fun res => rel_ite
      (fun _ => rel_bind rel_oracleCore fun _ => rel_minimizeLoop base xs _) fun _ => rel_minimizeLoop base xs _

theorem rel_minimizeCore (core base : List Lit) : Rel (P := P) (C := C) T (minimizeCore core base) (minimizeCore core base) := by
  unfold minimizeCore
  refine rel_getS fun k io₁ io₂ encs front fence hst => rel_ite (fun _ => rel_pure _) fun _ =>
    rel_ite (fun _ => rel_pure _) fun _ => ?_
  exact rel_bind (rel_start _) fun _ => rel_bind (rel_setConflLimit _) fun _ => rel_bind (rel_minimizeLoop _ _ _) fun _ =>
    rel_bind (rel_setConflLimit _) fun _ => rel_bind rel_end fun _ => rel_pure _

theorem rel_trimBody (base core : List Lit) : Rel (P := P) (C := C) T (trimBody base core) (trimBody base core) := by
  unfold trimBody
  exact rel_ite (fun _ => rel_bind (rel_solveAssumps _) fun _ => rel_bind (rel_dbg _) fun _ => rel_bind rel_oracleCore fun _ =>
    rel_ite (fun _ => rel_pure _) fun _ => rel_pure _) fun _ => rel_pure _

theorem rel_trimCore {n₁ n₂ : Nat} (hn : n₁ ≤ n₂) (core base : List Lit) :
    Rel (P := P) (C := C) T (trimCore n₁ core base) (trimCore n₂ core base) := by
  unfold trimCore
  refine rel_getS fun k io₁ io₂ encs front fence hst => rel_ite (fun _ => rel_pure _) fun _ =>
    rel_ite (fun _ => rel_pure _) fun _ => ?_
  exact rel_bind (rel_start _) fun _ => rel_bind (rel_loop (rel_trimBody _) hn _) fun _ => rel_bind rel_end fun _ => rel_pure _

theorem rel_relaxLit (cw : Nat) (st : RelaxState D) (olit : Lit) :
    Rel (P := P) (C := C) T (relaxLit cw st olit) (relaxLit cw st olit) := by
  unfold relaxLit
  refine rel_bind (rel_relax _ _ _) fun r => ?_
  dsimp only
  cases mapGet olit st.refs with
  | some rd =>
    refine rel_ite (fun _ => rel_pure _) fun _ => rel_ite (fun _ => rel_pure _) fun _ => ?_
    exact rel_bind (rel_buildOutput _ _ _) fun _ => rel_bind (rel_insert _ _ _) fun _ => rel_pure _
  | none => exact rel_pure _

theorem rel_relaxLoop (cw : Nat) : ∀ (ls : List Lit) (st : RelaxState D),
    Rel (P := P) (C := C) T (relaxLoop cw ls st) (relaxLoop cw ls st)
  | [], _ => rel_pure _
  | l :: ls, st => by
    unfold relaxLoop
    exact rel_bind (rel_relaxLit _ _ _) fun _ => rel_relaxLoop cw ls _

theorem rel_handleCore {n₁ n₂ : Nat} (hn : n₁ ≤ n₂) (base : List Lit) (st : OllState D) (core : List Lit) :
    Rel (P := P) (C := C) T (handleCore n₁ base st core) (handleCore n₂ base st core) := by
  unfold handleCore
  refine rel_bind (rel_minimizeCore _ _) fun _ => rel_bind (rel_trimCore hn _ _) fun _ => rel_bind (rel_unwrap _) fun cw => ?_
  refine rel_bind rel_isDebug fun _ => rel_bind (rel_unwrap _) fun _ => rel_bind (rel_logEvent _) fun _ => ?_
  exact rel_bind (rel_relaxLoop _ _ _) fun _ => rel_bind (rel_dbg _) fun _ => rel_ite (fun _ => rel_pure _) fun _ => rel_pure _

theorem rel_reformCore (base : List Lit) (st : OllState D) (c : CoreData) :
    Rel (P := P) (C := C) T (reformCore base st c) (reformCore base st c) := by
  unfold reformCore
  refine rel_bind (rel_unwrap _) fun slice => ?_
  dsimp only
  refine rel_bind (rel_exhaustCore _ _ _) fun r => rel_bind ?_ fun _ => ?_
  · exact rel_ite (fun _ => rel_bind rel_isDebug fun _ => rel_bind (rel_unwrap _) fun _ => rel_bind (rel_logEvent _) fun _ =>
      rel_pure _) fun _ => rel_pure _
  · exact rel_ite (fun _ => rel_bind (rel_insert _ _ _) fun _ => rel_pure _) fun _ => rel_pure _

theorem rel_reformCores (base : List Lit) : ∀ (cs : List CoreData) (st : OllState D),
    Rel (P := P) (C := C) T (reformCores base cs st) (reformCores base cs st)
  | [], _ => rel_pure _
  | c :: cs, st => by
    unfold reformCores
    exact rel_bind (rel_reformCore _ _ _) fun _ => rel_reformCores base cs _

theorem rel_reserveOutputs : ∀ (ps : List (Lit × ReformData)) (d : D),
    Rel (P := P) (C := C) T (reserveOutputs ps d) (reserveOutputs ps d)
  | [], _ => rel_pure _
  | p :: ps, d => by
    have ih := rel_reserveOutputs ps
    unfold reserveOutputs
    refine rel_getS fun k io₁ io₂ encs front fence hst => ?_
    dsimp only
    refine rel_bind ?_ fun _ => ih _
    rel_auto

theorem rel_ollBody {n₁ n₂ : Nat} (hn : n₁ ≤ n₂) (sorted base : List Lit) (exactRef : Bool) (st : OllState D) :
    Rel (P := P) (C := C) T (ollBody n₁ sorted base exactRef st) (ollBody n₂ sorted base exactRef st) := by
  unfold ollBody
  refine rel_bind (rel_ollPrepare _ _) fun r => rel_bind (rel_solveAssumps _) fun res => ?_
  cases res with
  | interrupted => exact rel_stop _
  | sat =>
    refine rel_ite (fun _ => ?_) fun _ => rel_bind (rel_reformCores _ _ _) fun _ => rel_pure _
    refine rel_bind rel_oracleSolution fun _ => rel_ite (fun _ => rel_bind (rel_reserveOutputs _ _) fun _ => ?_) fun _ => ?_
    · exact rel_bind rel_end fun _ => rel_pure _
    · exact rel_bind (rel_pure _) fun _ => rel_bind rel_end fun _ => rel_pure _
  | unsat =>
    exact rel_bind rel_oracleCore fun _ => rel_ite (fun _ => rel_bind rel_end fun _ => rel_pure _) fun _ =>
      rel_bind (rel_handleCore hn _ _ _) fun _ => rel_pure _

theorem rel_oll {n₁ n₂ : Nat} (hn : n₁ ≤ n₂) (reform : Reform) (base : List Lit) (d : D) (exactRef : Bool) :
    Rel (P := P) (C := C) T (oll n₁ reform base d exactRef) (oll n₂ reform base d exactRef) := by
  unfold oll
  refine rel_ite (fun _ => rel_bind (rel_solveAssumps _) fun res => ?_) fun _ => ?_
  · cases res with
    | sat => exact rel_bind rel_oracleSolution fun _ => rel_pure _
    | unsat => exact rel_pure _
    | interrupted => exact rel_stop _
  · exact rel_bind (rel_start _) fun _ => rel_loop (rel_ollBody hn _ _ _) hn _

/-! ## Core boosting -/

theorem rel_coreBoostLoop {n₁ n₂ : Nat} (hn : n₁ ≤ n₂) : ∀ (n i : Nat) (acc : List (Reform × D)),
    Rel (P := P) (C := C) T (coreBoostLoop D n₁ n i acc) (coreBoostLoop D n₂ n i acc)
  | 0, _, _ => rel_pure _
  | n + 1, i, acc => by
    have ih := rel_coreBoostLoop hn n
    unfold coreBoostLoop
    refine rel_getS fun k io₁ io₂ encs front fence hst => rel_bind (rel_unwrap _) fun o => rel_bind ?_ fun r => ?_
    · refine rel_ite (fun _ => rel_pure _) fun _ => rel_bind (rel_oll hn _ _ _ _) fun r => ?_
      cases r.1 with
      | some _ => exact rel_pure _
      | none => exact rel_pure _
    · cases r with
      | none => exact rel_pure _
      | some p =>
        refine rel_bind ?_ fun _ => ih _ _
        unfold setLowerBoundAt
        rel_auto

theorem rel_kernelCoreBoost {n₁ n₂ : Nat} (hn : n₁ ≤ n₂) :
    Rel (P := P) (C := C) T (kernelCoreBoost D n₁) (kernelCoreBoost D n₂) := by
  unfold kernelCoreBoost
  refine rel_bind (rel_start _) fun _ => rel_getS fun k io₁ io₂ encs front fence hst => ?_
  simp only [hst]
  exact rel_bind (rel_coreBoostLoop hn _ _ _) fun _ => rel_bind rel_end fun _ => rel_bind (rel_logEvent _) fun _ => rel_pure _

variable [MergeEnc P C D]

theorem rel_mergeCons (cons : List NodeCon) (d : D) (offset mlw : Nat) :
    Rel (P := P) (C := C) T (mergeCons cons d offset mlw) (mergeCons cons d offset mlw) := by
  unfold mergeCons
  exact rel_ite (fun _ => rel_ite (fun _ => rel_pure _) fun _ => rel_bind (rel_dbg _) fun _ => rel_pure _) fun _ => rel_pure _

theorem rel_litCons (refs : List (Lit × ReformData)) (rebase : Bool) (d : D) (p : Lit × Nat) :
    Rel (P := P) (C := C) T (litCons refs rebase d p) (litCons refs rebase d p) := by
  unfold litCons
  cases mapGet p.1 refs with
  | some rd =>
    exact rel_bind (rel_dbg _) fun _ => rel_bind (rel_dbg _) fun _ => rel_ite (fun _ => rel_pure _) fun _ =>
      rel_ite (fun _ => rel_pure _) fun _ => rel_pure _
  | none => exact rel_pure _

theorem rel_mergeLoop (refs : List (Lit × ReformData)) (rebase : Bool) : ∀ (ps : List (Lit × Nat)) (cons : List NodeCon) (d : D),
    Rel (P := P) (C := C) T (mergeLoop refs rebase ps cons d) (mergeLoop refs rebase ps cons d)
  | [], _, _ => rel_pure _
  | p :: ps, cons, d => by
    unfold mergeLoop
    exact rel_bind (rel_litCons _ _ _ _) fun _ => rel_mergeLoop refs rebase ps _ _

theorem rel_mergeReform (reform : Reform) (d : D) (rebase : Bool) :
    Rel (P := P) (C := C) T (mergeReform reform d rebase) (mergeReform reform d rebase) := by
  unfold mergeReform
  exact rel_ite (fun _ => rel_pure _) fun _ => rel_bind (rel_mergeLoop _ _ _ _ _) fun _ => rel_mergeCons _ _ _ _

theorem rel_replaceEncs (rebase reset : Bool) : ∀ (rs : List (Reform × D)) (i : Nat),
    Rel (P := P) (C := C) T (replaceEncs rebase reset i rs) (replaceEncs rebase reset i rs)
  | [], _ => rel_pure _
  | (reform, d) :: rs, i => by
    have ih := rel_replaceEncs rebase reset rs (i + 1)
    unfold replaceEncs
    refine rel_getS fun k io₁ io₂ encs front fence hst => rel_bind (rel_unwrap _) fun o => ?_
    have hend : Rel (P := P) (C := C) T (do checkTermination; replaceEncs rebase reset (i + 1) rs)
        (do checkTermination; replaceEncs rebase reset (i + 1) rs) := rel_bind rel_checkTermination fun _ => ih
    refine rel_ite (fun _ => rel_bind (rel_pure _) fun _ => hend) fun _ => ?_
    refine rel_bind (rel_mergeReform _ _ _) fun e => rel_getS fun k io₁ io₂ encs front fence hst =>
      rel_bind (rel_unwrap _) fun _ => rel_bind ?_ fun _ => hend
    rel_auto

theorem rel_coreBoost {n₁ n₂ : Nat} (hn : n₁ ≤ n₂) (opts : CbOptions) :
    Rel (P := P) (C := C) T (coreBoost D n₁ opts) (coreBoost D n₂ opts) := by
  unfold coreBoost
  refine rel_getS fun k io₁ io₂ encs front fence hst => ?_
  simp only [hst]
  refine rel_ite (fun _ => rel_stop _) fun _ => rel_bind (rel_kernelCoreBoost hn) fun r => ?_
  cases r with
  | none => exact rel_pure _
  | some res =>
    have hend : Rel (P := P) (C := C) T
        (do
          logRoutineStart "merge encodings"
          replaceEncs opts.rebase (opts.after = .reset) 0 res
          logRoutineEnd
          M.pure true)
        (do
          logRoutineStart "merge encodings"
          replaceEncs opts.rebase (opts.after = .reset) 0 res
          logRoutineEnd
          M.pure true) :=
      rel_bind (rel_start _) fun _ => rel_bind (rel_replaceEncs _ _ _ _) fun _ => rel_bind rel_end fun _ => rel_pure _
    refine rel_bind rel_checkTermination fun _ => rel_bind (rel_ite (fun _ => ?_) fun _ => rel_pure _) fun _ => hend
    exact rel_bind (rel_resetOracle _) fun _ => rel_checkTermination

end Cores

/-! ## Whole calls -/

/-- As `SameState`, but the limits do not matter. -/
structure Alike (T : Prop) (s₁ s₂ : Slv P C) : Prop where
  k : s₁.k = s₂.k
  encs : s₁.encs = s₂.encs
  front : s₁.front = s₂.front
  fence : s₁.fence = s₂.fence
  stats : s₁.io.stats = s₂.io.stats
  time : T ∨ s₁.io.tick = s₂.io.tick ∧ s₁.io.logger = s₂.io.logger

/-- The part of a call after `start_solving`. -/
def Alg.main : Alg → Nat → M P C Unit
  | .pMinimal => pminMain
  | .lowerBounding => lbMain
  | .biOptSat => bosMain

theorem rel_main (alg : Alg) {n₁ n₂ : Nat} (hn : n₁ ≤ n₂) : Rel (P := P) (C := C) T (alg.main n₁) (alg.main n₂) := by
  cases alg
  · exact rel_pminMain hn
  · exact rel_lbMain hn
  · exact rel_bioptsat (P := P) (C := C) hn 0 1 [] none none none fun _ => none

/-- A whole call to `solve` with and without limits. -/
theorem outcome_solve (alg : Alg) {n₁ n₂ : Nat} (hn : n₁ ≤ n₂) (limits : Limits) {env calm : Env}
    (E : SameSolver T env calm) {s₁ s₂ : Slv P C} (S : Alike T s₁ s₂) :
    Outcome T (LogFine env) (alg.solve n₁ limits env s₁) (alg.solve n₂ Limits.none calm s₂) := by
  have h : ∀ (n : Nat) (l : Limits) (env : Env) (s : Slv P C),
      alg.solve n l env s = (startSolving l >>= fun _ => (alg.main n : M P C Unit)) env s := by
    intro n l env s
    cases alg <;> rfl
  rw [h n₁ limits env s₁, h n₂ Limits.none calm s₂]
  obtain ⟨h1, h2, h3, h4, h5, h6⟩ := S
  exact outcome_bind E rfl ⟨rfl, h1, h2, h3, h4, by dsimp only [startSolving, modifyS]; rw [h5], rfl, h6⟩ (fun _ _ => rfl)
    fun _ => rel_main alg hn

end Scuttle

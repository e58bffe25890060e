import Verif.Proof.RefTot
import Verif.Model.Inprocess

/-!
# Contract of `reset_encoded`

What is assumed of `reset_encoded` of `rustsat::encodings::totdb::Db`, in addition to `LawfulTotDb`. This is part of the
trusted base; the instance for `RefTot` shows that the contract can be met.
-/

namespace Scuttle

open Spec

open TotSem (Node Inner cnt Sound Exact Below Inputs Base IsOut)

/-- Contract of `reset_encoded`. `Held d id i l` holds if `l` is the variable for output number `i` of a node, whether its
clauses were emitted or not. After `reset_encoded` no clauses count as emitted, but the outputs keep their variables. -/
class LawfulInproDb (D : Type) [TotDb D] [LawfulTotDb D] [InproDb D] where
  Held : D → Nat → Nat → Lit → Prop
  held_out : ∀ (d : D) id i l, IsOut d id i l → Held d id i l
  held_base : ∀ (d : D) b id i l, Base d b → Inner d id → Held d id i l → b ≤ l.var
  held_inj : ∀ (d : D) id i id' i' l, Inner d id → Inner d id' → Held d id i l → Held d id' i' l → id = id' ∧ i = i'
  held_define : ∀ (d : D) id i n l, Held d id i l → (TotDb.define d id i n).2.1 = l
  held_step : ∀ (d : D) id i l id' i' n, Held d id i l → Held (TotDb.define d id' i' n).1 id i l
  enc_keep : ∀ d : D, DKeep d (InproDb.resetEncoded d)
  enc_held : ∀ (d : D) id i l, Held d id i l → Held (InproDb.resetEncoded d) id i l
  enc_sound : ∀ (d : D) m, Sound (InproDb.resetEncoded d) m
  enc_exact : ∀ (d : D) m, Exact d m → Exact (InproDb.resetEncoded d) m
  enc_below : ∀ (d : D) n, Below d n → Below (InproDb.resetEncoded d) n
  enc_inputs : ∀ (d : D) n, Inputs d n → Inputs (InproDb.resetEncoded d) n
  enc_base : ∀ (d : D) n, Base d n → Base (InproDb.resetEncoded d) n

namespace RefTot

instance : InproDb RefTot where
  resetEncoded d := ⟨d.nodes, d.outs.map fun p => { p with enc := false }⟩

theorem mem_unmark {d : RefTot} {q : RefOut} (h : q ∈ (InproDb.resetEncoded d : RefTot).outs) :
    ∃ q' ∈ d.outs, q = { q' with enc := false } := by
  obtain ⟨q', h1, h2⟩ := List.mem_map.1 h
  exact ⟨q', h1, h2.symm⟩

instance : LawfulInproDb RefTot where
  Held d id i l := id < d.nodes.length ∧ ∃ p, d.lookup id i = some p ∧ l = Lit.pos p.var
  held_out d id i l h := by
    obtain ⟨h1, p, h2, -, h3⟩ := h
    exact ⟨h1, p, h2, h3⟩
  held_base d b id i l hb _ h := by
    obtain ⟨-, p, h1, rfl⟩ := h
    exact hb _ (lookup_some h1).1
  held_inj d id i id' i' l _ _ h h' := by
    obtain ⟨-, p, h1, rfl⟩ := h
    obtain ⟨-, p', h1', hx⟩ := h'
    have hv : p.var = p'.var := by simpa [Lit.pos] using hx
    have a := (lookup_some h1).2.2.2.2
    have a' := (lookup_some h1').2.2.2.2
    rw [hv, a'] at a
    simp only [Option.some.injEq, Prod.mk.injEq] at a
    exact ⟨a.1.symm, a.2.1.symm⟩
  held_define d id i n l h := by
    obtain ⟨-, p, h1, rfl⟩ := h
    have hd := define_cases d id i n
    generalize TotDb.define d id i n = r at hd ⊢
    cases hd with
    | old q h he => rw [h] at h1; simp only [Option.some.injEq] at h1; rw [h1]
    | held q h => rw [h] at h1; simp only [Option.some.injEq] at h1; rw [h1]
    | new x hx h _ hn => rw [hn] at h1; simp at h1
  held_step d id i l id' i' n h := by
    obtain ⟨h1, q, h2, rfl⟩ := h
    have hd := define_cases d id' i' n
    generalize TotDb.define d id' i' n = r at hd ⊢
    cases hd with
    | old p h he => exact ⟨h1, q, h2, rfl⟩
    | held p h =>
      refine ⟨h1, markOne p q, ?_, by rw [markOne_var]⟩
      rw [lookup_map _ (markOne_var p) (markOne_key p), h2]
      rfl
    | new x hx h _ hn =>
      refine ⟨h1, q, lookup_new h ?_ h2, rfl⟩
      intro he
      simp only [Prod.mk.injEq] at he
      obtain ⟨rfl, rfl, -⟩ := he
      rw [hn] at h2
      simp at h2
  enc_keep d := ⟨fun _ h => h, fun _ h => h, fun _ _ _ => rfl, fun _ _ => rfl⟩
  enc_held d id i l h := by
    obtain ⟨h1, q, h2, rfl⟩ := h
    refine ⟨h1, { q with enc := false }, ?_, rfl⟩
    have := lookup_map (fun p : RefOut => { p with enc := false }) (fun _ => rfl) (fun _ => rfl) d id i
    rw [h2] at this
    exact this
  enc_sound d m p hp he := by
    obtain ⟨q, -, rfl⟩ := mem_unmark hp
    simp at he
  enc_exact d m h p hp := by
    obtain ⟨q, h1, rfl⟩ := mem_unmark hp
    exact h q h1
  enc_below d n h := ⟨h.1, fun p hp => by
    obtain ⟨q, h1, rfl⟩ := mem_unmark hp
    exact h.2 q h1⟩
  enc_inputs d n h := h
  enc_base d n h p hp := by
    obtain ⟨q, h1, rfl⟩ := mem_unmark hp
    exact h q h1

end RefTot

end Scuttle

import Verif.Props.VarManager

/-!
# C23: combining two reindexers
-/

namespace Scuttle

theorem mapGet_foldl_insert {α β} [DecidableEq α] (k : α) : ∀ (l m : List (α × β)), (l.map Prod.fst).Nodup →
    mapGet k (l.foldl (fun m p => mapInsert p.1 p.2 m) m) = (mapGet k l).or (mapGet k m)
  | [], m, _ => by simp [mapGet]
  | (a, b) :: l, m, h => by
    rw [List.map_cons, List.nodup_cons] at h
    rw [List.foldl_cons, mapGet_foldl_insert k l _ h.2, mapGet_mapInsert]
    by_cases hk : a = k
    · subst hk
      have hn : mapGet a l = none := by
        cases hg : mapGet a l with
        | none => rfl
        | some c =>
          exfalso
          refine h.1 ?_
          clear h
          induction l with
          | nil => simp [mapGet] at hg
          | cons q l ih =>
            obtain ⟨x, y⟩ := q
            simp only [mapGet] at hg
            split at hg
            · next he => simp [he]
            · exact List.mem_cons_of_mem _ (ih hg)
      simp [hn, mapGet]
    · simp [mapGet, hk]

/-- Names that a new reindexer gives to variables. -/
theorem Reindexer.runAll_get {m : Nat} {vs : List Nat} {i v a : Nat} (hv : vs[i]? = some v)
    (ha : ((Reindexer.new m).runAll vs).1[i]? = some a) : mapGet v ((Reindexer.new m).runAll vs).2.inMap = some a := by
  obtain ⟨_, _, hall, _⟩ := (Reindexer.new m).runAll_spec (Reindexer.new_inv m) vs
  obtain ⟨hi, rfl⟩ := List.getElem?_eq_some_iff.1 hv
  obtain ⟨hi', rfl⟩ := List.getElem?_eq_some_iff.1 ha
  exact (List.forall₂_iff_get.1 hall).2 i hi hi'

theorem Reindexer.runAll_none {m : Nat} {vs : List Nat} {v : Nat} (hv : v ∉ vs) :
    mapGet v ((Reindexer.new m).runAll vs).2.inMap = none := by
  obtain ⟨_, _, _, hback⟩ := (Reindexer.new m).runAll_spec (Reindexer.new_inv m) vs
  cases hg : mapGet v ((Reindexer.new m).runAll vs).2.inMap with
  | none => rfl
  | some o =>
    rcases hback v o hg with h | h
    · exact absurd h hv
    · simp [Reindexer.new, mapGet] at h

theorem Reindexer.combine_get (m m' : Nat) (vs ws : List Nat) (u : Nat) :
    mapGet u (((Reindexer.new m).runAll vs).2.combine ((Reindexer.new m').runAll ws).2).inMap =
      (mapGet u ((Reindexer.new m').runAll ws).2.inMap).or (mapGet u ((Reindexer.new m).runAll vs).2.inMap) := by
  have hnd := Reindexer.runAll_nodup ws (Reindexer.new m') (by simp [Reindexer.new])
  unfold Reindexer.combine
  rw [mapGet_foldl_insert _ _ _ hnd]
  split <;> rfl

/-- C23: what `combine` is right about. Variables of the second reindexer have the names they have there, variables only of
the first one keep their names, variables of neither get a name that was given by neither, and names of the first one are
still mapped back. -/
theorem reindexer_combine_keeps (m m' : Nat) (vs ws : List Nat) {r : Reindexer}
    (hr : ((Reindexer.new m).runAll vs).2.combine ((Reindexer.new m').runAll ws).2 = r) :
    (∀ i w b : Nat, ws[i]? = some w → ((Reindexer.new m').runAll ws).1[i]? = some b → (r.reindex w).1 = b) ∧
    (∀ i v a : Nat, vs[i]? = some v → ((Reindexer.new m).runAll vs).1[i]? = some a →
      (v ∉ ws → (r.reindex v).1 = a) ∧ r.reverse a = some v) ∧
    ∀ u, u ∉ vs → u ∉ ws → (∀ a ∈ ((Reindexer.new m).runAll vs).1, a < (r.reindex u).1) ∧
      ∀ b ∈ ((Reindexer.new m').runAll ws).1, b < (r.reindex u).1 := by
  have hget := Reindexer.combine_get m m' vs ws
  have hb1 := (reindexer_bijection m vs).2.1
  have hb1' := (reindexer_bijection m' ws).2.1
  have hb2 := (reindexer_bijection m vs).2.2.1
  have hnext : r.nextVar = max ((Reindexer.new m).runAll vs).2.nextVar ((Reindexer.new m').runAll ws).2.nextVar := by
    rw [← hr]
    unfold Reindexer.combine
    simp only
    split
    · next h => exact (max_eq_right (le_of_lt h)).symm
    · next h => exact (max_eq_left (not_lt.1 h)).symm
  have hout : r.outMap = ((Reindexer.new m).runAll vs).2.outMap := by
    rw [← hr]
    unfold Reindexer.combine
    simp only
    split <;> rfl
  rw [hr] at hget
  refine ⟨fun i w b hw hb => ?_, fun i v a hv ha => ⟨fun hn => ?_, ?_⟩, fun u h1 h2 => ?_⟩
  · have h := hget w
    rw [Reindexer.runAll_get hw hb] at h
    simp [Reindexer.reindex, h]
  · have h := hget v
    rw [Reindexer.runAll_none hn, Reindexer.runAll_get hv ha] at h
    simp [Reindexer.reindex, h]
  · have h := hb2 i v a hv ha
    unfold Reindexer.reverse at h ⊢
    rwa [hout]
  · have h := hget u
    rw [Reindexer.runAll_none h1, Reindexer.runAll_none h2] at h
    have hn : (r.reindex u).1 = r.nextVar := by
      simp only [Option.or_none] at h
      simp [Reindexer.reindex, h, Reindexer.newVar]
    rw [hn, hnext]
    exact ⟨fun a ha => lt_of_lt_of_le ((hb1 a).1 ha) (le_max_left _ _), fun b hb => lt_of_lt_of_le ((hb1' b).1 hb) (le_max_right _ _)⟩

/-- C23: what `combine` is wrong about. The first variables of two reindexers get the same name, which is mapped back to
that of the first one only. -/
theorem reindexer_combine_clash (m m' : Nat) {v w : Nat} {vs ws : List Nat} (hv : v ∉ w :: ws) {r : Reindexer}
    (hr : ((Reindexer.new m).runAll (v :: vs)).2.combine ((Reindexer.new m').runAll (w :: ws)).2 = r) :
    v ≠ w ∧ (r.reindex v).1 = (r.reindex w).1 ∧ r.reverse (r.reindex w).1 = some v := by
  obtain ⟨h1, h2, _⟩ := reindexer_combine_keeps m m' _ _ hr
  have e1 : ((Reindexer.new m).runAll (v :: vs)).1[0]? = some 0 := rfl
  have e2 : ((Reindexer.new m').runAll (w :: ws)).1[0]? = some 0 := rfl
  have hw := h1 0 w 0 rfl e2
  obtain ⟨h3, h4⟩ := h2 0 v 0 rfl e1
  exact ⟨fun h => hv (by simp [h]), (h3 hv).trans hw.symm, by rw [hw]; exact h4⟩

/-- The first reindexer has seen 7 and 3, the second one 5, 3 and 8: only 7 keeps the name of the first one, which is also
that of 5. -/
example : ([7, 3, 5, 8, 9].map fun v =>
      ((((Reindexer.new 9).runAll [7, 3]).2.combine ((Reindexer.new 9).runAll [5, 3, 8]).2).reindex v).1) = [0, 1, 0, 2, 3] ∧
    (7 : Nat) ∉ [5, 3, 8] := by decide

end Scuttle

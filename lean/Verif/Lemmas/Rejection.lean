import Verif.Lemmas.Inversion
import Mathlib.Probability.ProductMeasure
import Mathlib.Probability.ConditionalProbability
import Mathlib.MeasureTheory.Constructions.BorelSpace.Real

/-!
# The law of a value that is redrawn until it is accepted
-/

namespace BB.Lemmas

open BB MeasureTheory ProbabilityTheory

/-- The tape that holds the first `n` of infinitely many blocks of draws. -/
def tape {α : Type} (enc : α → List Draw) (ω : ℕ → α) (n : ℕ) : List Draw := (List.range n).flatMap fun i => enc (ω i)

theorem tape_succ {α : Type} (enc : α → List Draw) (ω : ℕ → α) (n : ℕ) :
    tape enc ω (n + 1) = enc (ω 0) ++ tape enc (fun i => ω (i + 1)) n := by
  unfold tape
  rw [List.range_succ_eq_map, List.flatMap_cons, List.flatMap_map]

theorem tape_length {α : Type} {enc : α → List Draw} (h : ∀ z, enc z ≠ []) (ω : ℕ → α) (n : ℕ) :
    n ≤ (tape enc ω n).length := by
  induction n generalizing ω with
  | zero => simp
  | succ n ih =>
    rw [tape_succ, List.length_append]
    have h1 := ih fun i => ω (i + 1)
    have h2 := List.length_pos_of_ne_nil (h (ω 0))
    omega

/-- What a loop over blocks returns: the first accepted value. -/
theorem untilFuel_tape {α β : Type} {enc : α → List Draw} {m : M (Option β)} {g : α → Option β}
    (hm : ∀ z rest, m (enc z ++ rest) = (.ok (g z), rest)) (h0 : ∀ o, (m []).1 ≠ .ok o) (n fuel : ℕ) (hf : n ≤ fuel)
    (ω : ℕ → α) (y : β) :
    (∃ rest, M.untilFuel m fuel (tape enc ω n) = (.ok y, rest)) ↔
      ∃ k < n, (∀ j < k, g (ω j) = none) ∧ g (ω k) = some y := by
  induction n generalizing fuel ω with
  | zero =>
    constructor
    · rintro ⟨rest, h⟩
      exfalso
      cases fuel with
      | zero => exact absurd (congrArg Prod.fst h) (by simp [M.untilFuel, M.throw])
      | succ fuel =>
        rw [M.untilFuel] at h
        obtain ⟨o, t1, h1, -⟩ := M.bind_ok.1 h
        exact h0 o (congrArg Prod.fst h1)
    · rintro ⟨k, hk, -⟩
      omega
  | succ n ih =>
    obtain ⟨fuel, rfl⟩ : ∃ f, fuel = f + 1 := ⟨fuel - 1, by omega⟩
    have hrun : M.untilFuel m (fuel + 1) (tape enc ω (n + 1)) =
        match g (ω 0) with
        | some x => (.ok x, tape enc (fun i => ω (i + 1)) n)
        | none => M.untilFuel m fuel (tape enc (fun i => ω (i + 1)) n) := by
      rw [M.untilFuel, tape_succ]
      refine (M.bind_of (hm _ _)).trans ?_
      cases g (ω 0) <;> rfl
    rw [hrun]
    cases hg : g (ω 0) with
    | some x =>
      simp only
      constructor
      · rintro ⟨rest, h⟩
        have : x = y := by simpa using congrArg Prod.fst h
        subst this
        exact ⟨0, by omega, by simp, hg⟩
      · rintro ⟨k, -, h1, h2⟩
        cases k with
        | zero =>
          rw [hg] at h2
          injection h2 with h2
          subst h2
          exact ⟨_, rfl⟩
        | succ k =>
          have := h1 0 (by omega)
          rw [hg] at this
          cases this
    | none =>
      simp only
      rw [ih fuel (by omega) fun i => ω (i + 1)]
      constructor
      · rintro ⟨k, hk, h1, h2⟩
        refine ⟨k + 1, by omega, fun j hj => ?_, h2⟩
        cases j with
        | zero => exact hg
        | succ j => exact h1 j (by omega)
      · rintro ⟨k, hk, h1, h2⟩
        cases k with
        | zero =>
          rw [hg] at h2
          cases h2
        | succ k => exact ⟨k, by omega, fun j hj => h1 (j + 1) (by omega), h2⟩

theorem until_tape {α β : Type} {enc : α → List Draw} (henc : ∀ z, enc z ≠ []) {m : M (Option β)} {g : α → Option β}
    (hm : ∀ z rest, m (enc z ++ rest) = (.ok (g z), rest)) (h0 : ∀ o, (m []).1 ≠ .ok o) (n : ℕ) (ω : ℕ → α) (y : β) :
    (∃ rest, M.until m (tape enc ω n) = (.ok y, rest)) ↔
      ∃ k < n, (∀ j < k, g (ω j) = none) ∧ g (ω k) = some y :=
  untilFuel_tape hm h0 n _ (by have := tape_length henc ω n; omega) ω y

/-- The law of the first accepted value of independent draws is the law of one draw given that it is accepted. -/
theorem first_accepted {α β : Type} [MeasurableSpace α] [MeasurableSpace β] (ν : Measure α) [IsProbabilityMeasure ν]
    {f : α → β} (hf : Measurable f) {I A : Set β} (hI : MeasurableSet I) (hA : MeasurableSet A) :
    Measure.infinitePi (fun _ : ℕ => ν) {ω | ∃ k, (∀ j < k, f (ω j) ∉ I) ∧ f (ω k) ∈ I ∩ A} =
      (ν.map f)[A | I] := by
  have hset : {ω : ℕ → α | ∃ k, (∀ j < k, f (ω j) ∉ I) ∧ f (ω k) ∈ I ∩ A} =
      ⋃ k, Set.pi (Finset.range (k + 1)) fun j => if j < k then (f ⁻¹' I)ᶜ else f ⁻¹' (I ∩ A) := by
    ext ω
    simp only [Set.mem_setOf_eq, Set.mem_iUnion, Set.mem_pi, Finset.coe_range, Set.mem_Iio]
    refine exists_congr fun k => ⟨fun ⟨h1, h2⟩ j hj => ?_, fun h => ⟨fun j hj => ?_, ?_⟩⟩
    · split
      · next hjk => exact h1 j hjk
      · next hjk =>
        have : j = k := by omega
        subst this
        exact h2
    · have := h j (by omega)
      rw [if_pos hj] at this
      exact this
    · have := h k (by omega)
      rw [if_neg (lt_irrefl k)] at this
      exact this
  have hmI : MeasurableSet (f ⁻¹' I) := hf hI
  have hmA : MeasurableSet (f ⁻¹' (I ∩ A)) := hf (hI.inter hA)
  have hmeas : ∀ k j : ℕ, MeasurableSet ((fun j : ℕ => if j < k then (f ⁻¹' I)ᶜ else f ⁻¹' (I ∩ A)) j : Set α) := by
    intro k j
    simp only
    split
    · exact hmI.compl
    · exact hmA
  rw [hset, measure_iUnion]
  · have hk : ∀ k, Measure.infinitePi (fun _ : ℕ => ν)
        (Set.pi (Finset.range (k + 1)) fun j => if j < k then (f ⁻¹' I)ᶜ else f ⁻¹' (I ∩ A)) =
        (ν (f ⁻¹' I)ᶜ) ^ k * ν (f ⁻¹' (I ∩ A)) := by
      intro k
      rw [Measure.infinitePi_pi _ (fun j _ => hmeas k j), Finset.prod_range_succ, if_neg (lt_irrefl k)]
      congr 1
      rw [Finset.prod_congr rfl (g := fun _ => ν (f ⁻¹' I)ᶜ), Finset.prod_const, Finset.card_range]
      intro j hj
      rw [if_pos (Finset.mem_range.1 hj)]
    simp only [hk]
    rw [ENNReal.tsum_mul_right, ENNReal.tsum_geometric, cond_apply hI, Measure.map_apply hf hI,
      Measure.map_apply hf (hI.inter hA), prob_compl_eq_one_sub hmI,
      ENNReal.sub_sub_cancel ENNReal.one_ne_top prob_le_one]
  · intro k l hkl
    wlog h : k < l generalizing k l
    · exact (this hkl.symm (by omega)).symm
    refine Set.disjoint_left.2 fun ω h1 h2 => ?_
    have a := h1 k (by simp)
    have b := h2 k (by simp; omega)
    simp only [if_neg (lt_irrefl k)] at a
    simp only [if_pos h] at b
    exact b a.1
  · exact fun k => MeasurableSet.pi (Set.to_countable _) fun j _ => hmeas k j

open Classical in
/-- The law of a loop that redraws until a value is accepted. -/
theorem until_law {α β : Type} [MeasurableSpace α] [MeasurableSpace β] (ν : Measure α) [IsProbabilityMeasure ν]
    {enc : α → List Draw} (henc : ∀ z, enc z ≠ []) {m : M (Option β)} {f : α → β} (hf : Measurable f)
    {I A : Set β} (hI : MeasurableSet I) (hA : MeasurableSet A)
    (hm : ∀ z rest, m (enc z ++ rest) = (.ok (if f z ∈ I then some (f z) else none), rest))
    (h0 : ∀ o, (m []).1 ≠ .ok o) :
    Measure.infinitePi (fun _ : ℕ => ν) {ω | ∃ n y rest, y ∈ A ∧ M.until m (tape enc ω n) = (.ok y, rest)} =
      (ν.map f)[A | I] := by
  rw [← first_accepted ν hf hI hA]
  congr 1
  ext ω
  simp only [Set.mem_setOf_eq]
  constructor
  · rintro ⟨n, y, rest, hy, h⟩
    obtain ⟨k, -, h1, h2⟩ := (until_tape henc hm h0 n ω y).1 ⟨rest, h⟩
    refine ⟨k, fun j hj hc => ?_, ?_⟩
    · have := h1 j hj
      rw [if_pos hc] at this
      cases this
    · split at h2
      · next hc =>
        injection h2 with h2
        exact ⟨hc, h2 ▸ hy⟩
      · cases h2
  · rintro ⟨k, h1, h2⟩
    obtain ⟨rest, h⟩ := (until_tape henc hm h0 (k + 1) ω (f (ω k))).2
      ⟨k, by omega, fun j hj => if_neg (h1 j hj), if_pos h2.1⟩
    exact ⟨k + 1, _, rest, h2.2, h⟩

end BB.Lemmas

import Verif.Model.Construct
import Verif.Lemmas.Prior
import Verif.Props.C46_C48_Interpolation

/-!
# C67 — hyper-parameters of priors are checked and interpolated
-/

namespace BB.Props

open BB Spec Lemmas

/-- The hyper-parameter fits the positions: a number always does, an array if there are positions, as many as it has
elements. -/
def Fits : PositionArg → HyperArg → Prop
  | _, .scalar _ => True
  | .none, .array _ => False
  | .line xs, .array ys => ys.length = xs.length
  | .plane ps, .array ys => ys.length = ps.length

/-- The hyper-parameters among the particular arguments of a class. -/
def RawDist.args : RawDist → List HyperArg
  | .uniform a b => [a, b]
  | .gaussian a b => [a, b]
  | .laplace a b => [a, b]
  | .custom .. => []

/-- What a hyper-parameter `h` should be, given `a`: a number everywhere; otherwise the given values at the given positions. -/
def Represents (nd : LinearND) : PositionArg → HyperArg → Hyper → Prop
  | _, .scalar x, h => ∀ q, h.get q = .ok x
  | .none, .array _, _ => False
  | .line xs, .array ys, h =>
    h.get .none = .error .valueError ∧
    (StrictlyAscending xs → ∀ (i : ℕ) (hi : i < xs.length) (hi' : i < ys.length), h.get (.one xs[i]) = .ok ys[i]) ∧
    (xs ≠ [] → ∀ x lo hi, (∀ y ∈ ys, lo ≤ y ∧ y ≤ hi) → ∃ v, h.get (.one x) = .ok v ∧ lo ≤ v ∧ v ≤ hi)
  | .plane ps, .array ys, h =>
    h.get .none = .error .valueError ∧
    ∀ p, (∀ v, nd ps ys p = some v → h.get (.two p) = .ok v) ∧ (nd ps ys p = none → h.get (.two p) = .error .outOfDomain)

theorem addHyper_fits (nd : LinearND) (pos : PositionArg) (a : HyperArg) :
    (Fits pos a → ∃ h, addHyper nd pos a = .ok h ∧ Represents nd pos a h) ∧
      (¬ Fits pos a → addHyper nd pos a = .error .assertionError) := by
  match pos, a with
  | pos, .scalar x => exact ⟨fun _ => ⟨.const x, rfl, by cases pos <;> exact fun _ => rfl⟩, fun h => by cases pos <;> exact absurd trivial h⟩
  | .none, .array ys => exact ⟨fun h => h.elim, fun _ => rfl⟩
  | .line xs, .array ys =>
    refine ⟨fun h => ⟨.line xs ys, if_pos h, rfl, fun hs i hi hi' => ?_, fun hx x lo hi hy => ?_⟩, fun h => if_neg h⟩
    · exact C47_nodes xs ys h hs i hi
    · exact C47_range xs ys hx h x lo hi hy
  | .plane ps, .array ys =>
    refine ⟨fun h => ⟨.plane (nd ps ys), if_pos h, rfl, fun p => ⟨fun v hv => ?_, fun hv => ?_⟩⟩, fun h => if_neg h⟩
    · rw [Hyper.get, hv]
    · rw [Hyper.get, hv]

/-- The particular hyper-parameters of the prior are the given ones. -/
def DistRepresents (nd : LinearND) (pos : PositionArg) : RawDist → Dist → Prop
  | .uniform a b, .uniform h k => Represents nd pos a h ∧ Represents nd pos b k
  | .gaussian a b, .gaussian h k => Represents nd pos a h ∧ Represents nd pos b k
  | .laplace a b, .laplace h k => Represents nd pos a h ∧ Represents nd pos b k
  | .custom f g s, .custom f' g' s' => f' = f ∧ g' = g ∧ s' = s
  | _, _ => False

/-- Arrays that have the length of the positions have the same length. -/
theorem fits_subtractable {pos : PositionArg} {a b : HyperArg} (ha : Fits pos a) (hb : Fits pos b) :
    subtractable a b = true := by
  match pos, a, b with
  | _, .scalar _, _ => simp [subtractable]
  | _, .array _, .scalar _ => simp [subtractable]
  | .line xs, .array ys, .array zs =>
    have h1 : ys.length = xs.length := ha
    have h2 : zs.length = xs.length := hb
    simp [subtractable, h1, h2]
  | .plane xs, .array ys, .array zs =>
    have h1 : ys.length = xs.length := ha
    have h2 : zs.length = xs.length := hb
    simp [subtractable, h1, h2]

theorem two_hypers (nd : LinearND) (pos : PositionArg) (a b : HyperArg) (mk : Hyper → Hyper → Dist) :
    ((Fits pos a ∧ Fits pos b) → ∃ h k, (do
        let a ← addHyper nd pos a
        let b ← addHyper nd pos b
        return mk a b : Except PyErr Dist) = .ok (mk h k) ∧ Represents nd pos a h ∧ Represents nd pos b k) ∧
    (¬ (Fits pos a ∧ Fits pos b) → (do
        let a ← addHyper nd pos a
        let b ← addHyper nd pos b
        return mk a b : Except PyErr Dist) = .error .assertionError) := by
  obtain ⟨a1, a2⟩ := addHyper_fits nd pos a
  obtain ⟨b1, b2⟩ := addHyper_fits nd pos b
  constructor
  · rintro ⟨ha, hb⟩
    obtain ⟨h, e1, r1⟩ := a1 ha
    obtain ⟨k, e2, r2⟩ := b1 hb
    refine ⟨h, k, ?_, r1, r2⟩
    rw [e1, e2]
    rfl
  · intro hn
    by_cases ha : Fits pos a
    · obtain ⟨h, e1, r1⟩ := a1 ha
      rw [e1, b2 fun hb => hn ⟨ha, hb⟩]
      rfl
    · rw [a2 ha]
      rfl

theorem rawDist_build (nd : LinearND) (pos : PositionArg) (raw : RawDist) :
    ((∀ a ∈ RawDist.args raw, Fits pos a) → ∃ d, raw.build nd pos = .ok d ∧ DistRepresents nd pos raw d) ∧
    (¬ (∀ a ∈ RawDist.args raw, Fits pos a) → raw.build nd pos = .error .assertionError ∨
      (raw.build nd pos = .error .valueError ∧ ∃ a b, raw = .uniform (.array a) (.array b) ∧ a.length ≠ b.length ∧
        a.length ≠ 1 ∧ b.length ≠ 1)) := by
  match raw with
  | .custom f g s => exact ⟨fun _ => ⟨_, rfl, rfl, rfl, rfl⟩, fun h => absurd (by simp [RawDist.args]) h⟩
  | .gaussian a b =>
    obtain ⟨h1, h2⟩ := two_hypers nd pos a b .gaussian
    simp only [RawDist.args, List.forall_mem_cons, List.not_mem_nil, false_imp_iff, implies_true, and_true]
    refine ⟨fun h => ?_, fun h => .inl (h2 h)⟩
    obtain ⟨x, y, e, r⟩ := h1 h
    exact ⟨_, e, r⟩
  | .laplace a b =>
    obtain ⟨h1, h2⟩ := two_hypers nd pos a b .laplace
    simp only [RawDist.args, List.forall_mem_cons, List.not_mem_nil, false_imp_iff, implies_true, and_true]
    refine ⟨fun h => ?_, fun h => .inl (h2 h)⟩
    obtain ⟨x, y, e, r⟩ := h1 h
    exact ⟨_, e, r⟩
  | .uniform a b =>
    obtain ⟨h1, h2⟩ := two_hypers nd pos a b .uniform
    simp only [RawDist.args, List.forall_mem_cons, List.not_mem_nil, false_imp_iff, implies_true, and_true]
    refine ⟨fun h => ?_, fun h => ?_⟩
    · obtain ⟨x, y, e, r⟩ := h1 h
      exact ⟨_, (if_pos (fits_subtractable h.1 h.2)).trans e, r⟩
    · by_cases hs : subtractable a b = true
      · exact .inl ((if_pos hs).trans (h2 h))
      · refine .inr ⟨if_neg hs, ?_⟩
        match a, b with
        | .scalar _, _ => exact absurd (by simp [subtractable]) hs
        | .array _, .scalar _ => exact absurd (by simp [subtractable]) hs
        | .array a, .array b =>
          exact ⟨a, b, rfl, fun hl => hs (by simp [subtractable, hl]), fun hl => hs (by simp [subtractable, hl]),
            fun hl => hs (by simp [subtractable, hl])⟩

/-- C67: a prior is built exactly if all its hyper-parameters fit the positions, and then they have the given values at the given
positions; otherwise there is an `AssertionError`, or a `ValueError` for arrays of different lengths as bounds of a
uniform prior.  The perturbations at birth have the same standard deviation as the others if none is given. -/
theorem C67_built (nd : LinearND) (name : String) (raw : RawDist) (std : HyperArg) (stdBirth : Option HyperArg)
    (pos : PositionArg) :
    ((∀ a ∈ RawDist.args raw, Fits pos a) ∧ Fits pos std ∧ (∀ a, stdBirth = some a → Fits pos a) →
      ∃ p, Prior.build nd name raw std stdBirth pos = .ok p ∧ p.name = name ∧ (p.hasPosition = true ↔ pos ≠ .none) ∧ DistRepresents nd pos raw p.dist ∧
        Represents nd pos std p.std ∧ (∀ a, stdBirth = some a → Represents nd pos a p.stdBirth) ∧
        (stdBirth = none → p.stdBirth = p.std)) ∧
    (¬ ((∀ a ∈ RawDist.args raw, Fits pos a) ∧ Fits pos std ∧ (∀ a, stdBirth = some a → Fits pos a)) →
      Prior.build nd name raw std stdBirth pos = .error .assertionError ∨
        (Prior.build nd name raw std stdBirth pos = .error .valueError ∧
          ∃ a b, raw = .uniform (.array a) (.array b) ∧ a.length ≠ b.length ∧
        a.length ≠ 1 ∧ b.length ≠ 1)) := by
  obtain ⟨h1, h2⟩ := rawDist_build nd pos raw
  obtain ⟨s1, s2⟩ := addHyper_fits nd pos std
  obtain ⟨b1, b2⟩ := addHyper_fits nd pos (stdBirth.getD std)
  constructor
  · rintro ⟨hr, hs, hb⟩
    obtain ⟨d, e1, r1⟩ := h1 hr
    obtain ⟨s, e2, r2⟩ := s1 hs
    cases stdBirth with
    | none =>
      refine ⟨⟨name, d, s, s, pos.given, none⟩, ?_, rfl, by cases pos <;> simp [PositionArg.given], r1, r2, by simp, fun _ => rfl⟩
      unfold Prior.build
      rw [e1, Option.getD_none, e2]
      rfl
    | some b =>
      obtain ⟨k, e3, r3⟩ := b1 (hb b rfl)
      refine ⟨⟨name, d, s, k, pos.given, none⟩, ?_, rfl, by cases pos <;> simp [PositionArg.given], r1, r2, ?_, by simp⟩
      · unfold Prior.build
        rw [e1, e2, e3]
        rfl
      · rintro a ha
        injection ha with ha
        subst ha
        exact r3
  · intro hn
    unfold Prior.build
    by_cases hr : ∀ a ∈ RawDist.args raw, Fits pos a
    · obtain ⟨d, e1, _⟩ := h1 hr
      left
      by_cases hs : Fits pos std
      · obtain ⟨s, e2, _⟩ := s1 hs
        have hb : ¬ Fits pos (stdBirth.getD std) := by
          intro hb
          refine hn ⟨hr, hs, fun a ha => ?_⟩
          rw [ha] at hb
          exact hb
        rw [e1, e2, b2 hb]
        rfl
      · rw [e1, s2 hs]
        rfl
    · rcases h2 hr with e | ⟨e, h⟩
      · left
        rw [e]
        rfl
      · right
        rw [e]
        exact ⟨rfl, h⟩

/-- C67, when there is a `ValueError`: exactly if the bounds of a uniform prior are arrays of different lengths other than one. -/
theorem C67_value_error (nd : LinearND) (name : String) (raw : RawDist) (std : HyperArg) (stdBirth : Option HyperArg)
    (pos : PositionArg) : Prior.build nd name raw std stdBirth pos = .error .valueError ↔
      ∃ a b, raw = .uniform (.array a) (.array b) ∧ a.length ≠ b.length ∧ a.length ≠ 1 ∧ b.length ≠ 1 := by
  obtain ⟨h1, h2⟩ := C67_built nd name raw std stdBirth pos
  constructor
  · intro h
    by_cases hf : (∀ a ∈ RawDist.args raw, Fits pos a) ∧ Fits pos std ∧ (∀ a, stdBirth = some a → Fits pos a)
    · obtain ⟨p, hp, -⟩ := h1 hf
      rw [hp] at h
      cases h
    · rcases h2 hf with h3 | ⟨-, h3⟩
      · rw [h3] at h
        cases h
      · exact h3
  · rintro ⟨a, b, rfl, g1, g2, g3⟩
    have : RawDist.build nd pos (.uniform (.array a) (.array b)) = .error .valueError :=
      if_neg (by simp [subtractable, g1, g2, g3])
    unfold Prior.build
    rw [this]
    rfl

/-- Both exceptions occur. -/
example (nd : LinearND) : Prior.build nd "vs" (.uniform (.array [1, 2]) (.array [3, 4, 5])) (.scalar 1) none (.line [0, 10]) = .error .valueError ∧
    Prior.build nd "vs" (.uniform (.array [1]) (.array [3, 4])) (.scalar 1) none (.line [0, 10]) ≠ .error .valueError := by
  refine ⟨(C67_value_error ..).2 ⟨_, _, rfl, by simp⟩, ?_⟩
  rw [Ne, C67_value_error]
  rintro ⟨a, b, h, -, h1, -⟩
  injection h with h2 _
  injection h2 with h2
  subst h2
  simp at h1

/-- A Gaussian prior whose mean depends on the depth. -/
example (nd : LinearND) : ∃ p, Prior.build nd "vs" (.gaussian (.array [1, 3, 4]) (.scalar 2)) (.scalar 1) none
    (.line [0, 10, 20]) = .ok p ∧ ∃ mean std, p.dist = .gaussian mean std ∧ mean.get (.one 10) = .ok 3 := by
  obtain ⟨p, h, _, _, hd, _⟩ := (C67_built nd "vs" (.gaussian (.array [1, 3, 4]) (.scalar 2)) (.scalar 1) none
    (.line [0, 10, 20])).1 (by simp [RawDist.args, Fits])
  refine ⟨p, h, ?_⟩
  match hp : p.dist, hd with
  | .gaussian mean std, hd =>
    refine ⟨mean, std, rfl, ?_⟩
    have := hd.1.2.1 (by norm_num [StrictlyAscending]) 1 (by simp) (by simp)
    simpa using this

/-- An array needs positions. -/
example (nd : LinearND) : Prior.build nd "vs" (.gaussian (.array [1, 3, 4]) (.scalar 2)) (.scalar 1) none .none =
    .error .assertionError := rfl

end BB.Props

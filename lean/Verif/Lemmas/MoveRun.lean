import Verif.Props.C75_NeighbourBalance
import Verif.Lemmas.PlainRun
import Verif.Lemmas.RowJoint
import Verif.Lemmas.Join
import Verif.Lemmas.NoiseRun

/-!
# What the perturbations of the values and of the sites compute
-/

namespace BB.Lemmas

open BB BB.Spec BB.Props MeasureTheory ProbabilityTheory

theorem perturbValue_moved {P : Type} [MeasurableSpace P] {pr : Prior} {loc : P → Pos} {dom : Set P} {dens : P → ℝ → ℝ}
    (h : HasDensity pr loc dom dens) (hc : NotCustom pr) {x : P} (hx : x ∈ dom) {std : ℝ} (hs : pr.std.get (loc x) = .ok std)
    (v z : ℝ) :
    ∃ r, (∀ rest, pr.perturbValue v (loc x) false (normalDraw z :: rest) = (.ok (v + z * std, r), rest)) ∧
      (0 < dens x v → r = logOf (max (dens x (v + z * std)) 0 / dens x v)) := by
  have hlog := HasDensity.log h hx
  have hst : pr.getStd false (loc x) = .ok std := hs
  have hz : (0 : ℝ) + (normalDraw z).z * std = z * std := zero_add _
  have key : ∃ r, ∀ rest, pr.perturbValue v (loc x) false (normalDraw z :: rest) = (.ok (v + z * std, r), rest) := by
    unfold HasDensity at h
    unfold Prior.perturbValue
    cases hd : pr.dist with
    | uniform vmin vmax =>
      rw [hd] at h
      obtain ⟨a, b, -, -, h1, -⟩ := h
      simp only [hst, (h1 x hx).1, (h1 x hx).2.1]
      constructor
      intro rest
      refine (M.bind_of rfl).trans ((M.bind_of rfl).trans ((M.bind_of rfl).trans
        ((M.bind_of (M.normalvariate_run _ _ _ _)).trans ?_)))
      rw [hz]
      rfl
    | gaussian mean sd =>
      rw [hd] at h
      obtain ⟨a, b, -, -, h1, -⟩ := h
      simp only [hst, (h1 x hx).1, (h1 x hx).2.1]
      have hne : ¬ 2 * b x ^ 2 = 0 := by
        have := (h1 x hx).2.2
        positivity
      constructor
      intro rest
      refine (M.bind_of rfl).trans ((M.bind_of (M.normalvariate_run _ _ _ _)).trans ((M.bind_of rfl).trans
        ((M.bind_of rfl).trans ?_)))
      rw [if_neg hne, hz]
      rfl
    | laplace mean scale =>
      rw [hd] at h
      obtain ⟨a, b, -, -, h1, -⟩ := h
      simp only [hst, (h1 x hx).1, (h1 x hx).2.1]
      constructor
      intro rest
      refine (M.bind_of rfl).trans ((M.bind_of (M.normalvariate_run _ _ _ _)).trans ((M.bind_of rfl).trans
        ((M.bind_of rfl).trans ?_)))
      rw [if_neg (h1 x hx).2.2.ne', hz]
      rfl
    | custom log f sample => exact absurd hd (hc _ _ _)
  obtain ⟨r, hr⟩ := key
  refine ⟨r, hr, fun hpos => ?_⟩
  have hv : pr.logPrior v (loc x) = .ok (.fin (Real.log (dens x v))) := by
    rw [hlog v]
    unfold logOf
    rw [if_pos hpos]
  obtain ⟨y, hy, rfl⟩ := perturbValue_ratio (hr []) hv
  rw [hlog] at hy
  injection hy with hy
  rw [← hy, logOf_div hpos]

/-! ### values -/

/-- A parameter with its values, the value that is replaced, the new one, what is reported, and the draw. -/
structure Change where
  prior : Prior
  col : List ℝ
  old : ℝ
  new : ℝ
  ratio : PyF
  draw : Draw

theorem perturbPriors_at {st : PSState} {i : ℕ} {pos : Pos} (hpos : posAt st i = .ok pos) :
    ∀ (cs : List Change) (acc : List (String × PVal)) (r : PyF), (dkeys acc ++ cs.map fun c => c.prior.name).Nodup →
    (∀ c ∈ cs, st.get c.prior.name = some (.arr (.vec c.col)) ∧ c.col[i]? = some c.old ∧
      ∀ t, c.prior.perturbValue c.old pos false (c.draw :: t) = (.ok (c.new, c.ratio), t)) → ∀ t,
    perturbPriors st i (cs.map Change.prior) acc r (cs.map Change.draw ++ t) =
      (.ok (acc ++ cs.map fun c => (c.prior.name, .arr (.vec (c.col.set i c.new))),
        (cs.map Change.ratio).foldl PyF.add r), t)
  | [], acc, r, _, _, t => by simp [perturbPriors]; rfl
  | c :: cs, acc, r, hn, h, t => by
    obtain ⟨h1, h2, h4⟩ := h c (List.mem_cons_self ..)
    have hk : c.prior.name ∉ dkeys acc := by
      rw [List.nodup_append] at hn
      exact fun hm => hn.2.2 _ hm _ (List.mem_cons_self ..) rfl
    rw [List.map_cons, List.map_cons, List.cons_append, perturbPriors.eq_def]
    simp only [h1]
    have hnum : numAt (some (.arr (.vec c.col))) i = .ok c.old := by
      unfold numAt
      simp only [h2]
    rw [hnum, hpos]
    refine (M.bind_of rfl).trans ((M.bind_of rfl).trans ((M.bind_of (h4 _)).trans ?_))
    simp only
    rw [dset_new hk]
    have ih := perturbPriors_at hpos cs (acc ++ [(c.prior.name, .arr (.vec (c.col.set i c.new)))]) (r.add c.ratio) (by
      unfold dkeys at hn ⊢
      simpa using hn) (fun c hc => h c (List.mem_cons_of_mem _ hc)) t
    rw [ih]
    simp

theorem foldl_logOf : ∀ (l : List ℝ) (r : ℝ), 0 ≤ r → (∀ x ∈ l, 0 ≤ x) → (l.map logOf).foldl PyF.add (logOf r) = logOf (r * l.prod)
  | [], r, _, _ => by simp
  | x :: l, r, hr, h => by
    have hx := h x (List.mem_cons_self ..)
    rw [List.map_cons, List.foldl_cons, ← logOf_mul hr hx, foldl_logOf l _ (mul_nonneg hr hx)
      fun y hy => h y (List.mem_cons_of_mem _ hy), List.prod_cons, mul_assoc]

section rows

variable {P : Type} [MeasurableSpace P] {k : ℕ} {sp : Space} {prs : Fin k → Prior} {col : List P → List (String × PVal)}
  {loc : P → Pos} {dom : Set P} {dens : Fin k → P → ℝ → ℝ} {std : Fin k → P → ℝ}

/-- How the sites are stored. -/
structure Stored (prs : Fin k → Prior) (col : List P → List (String × PVal)) (loc : P → Pos) : Prop where
  keys : ∀ xs, (dkeys (col xs) ++ List.ofFn fun j => (prs j).name).Nodup
  get : ∀ l s, Holds col prs l s → ∀ j, s.get (prs j).name = some (.arr (.vec (l.map fun r => r.2 j)))
  pos : ∀ l s, Holds col prs l s → ∀ i (h : i < l.length), posAt s i = .ok (loc l[i].1)

theorem prod_ratio {a b : Fin k → ℝ} (hb : ∀ j, 0 < b j) : ∏ j, max (a j) 0 / b j = (∏ j, max (a j) 0) / ∏ j, max (b j) 0 := by
  rw [← Finset.prod_div_distrib]
  exact Finset.prod_congr rfl fun j _ => by rw [max_eq_left (hb j).le]

theorem priorDens_pos_iff (dens : Fin k → P → ℝ → ℝ) (r : P × (Fin k → ℝ)) :
    0 < priorDens dens r ↔ ∀ j, 0 < dens j r.1 (r.2 j) := by
  unfold priorDens
  constructor
  · intro h j
    by_contra hc
    have : ∏ j, max (dens j r.1 (r.2 j)) 0 = 0 := Finset.prod_eq_zero (Finset.mem_univ j) (max_eq_right (not_lt.1 hc))
    exact absurd this h.ne'
  · intro h
    exact Finset.prod_pos fun j _ => lt_max_of_lt_left (h j)

theorem values_moved (hst : Stored prs col loc) (hd : ∀ j, HasDensity (prs j) loc dom (dens j))
    (hc : ∀ j, NotCustom (prs j)) (hstd : ∀ j, ∀ x ∈ dom, (prs j).std.get (loc x) = .ok (std j x)) (name : String)
    {l : List (P × (Fin k → ℝ))} {s : PSState} (hl : Holds col prs l s) (m : ℕ) (hm : m % l.length < l.length)
    (hdom : (l[m % l.length]).1 ∈ dom) (z : Fin k → ℝ) :
    ∃ s' lpr, Holds col prs (l.set (m % l.length) (newValues std l[m % l.length] z)) s' ∧
      (∀ rest, (PSFunc.values name (List.ofFn prs)).run s (indexDraw m :: (normalDraws z ++ rest)) = (.ok (s', lpr), rest)) ∧
      (0 < priorDens dens l[m % l.length] →
        lpr = logOf (priorDens dens (newValues std l[m % l.length] z) / priorDens dens l[m % l.length])) := by
  set i := m % l.length with hi
  set r := l[i] with hr
  have hrun := fun j => perturbValue_moved (hd j) (hc j) hdom (hstd j _ hdom) (r.2 j) (z j)
  choose lp h1 h2 using hrun
  let cs : List Change := List.ofFn fun j => ⟨prs j, l.map fun r => r.2 j, r.2 j, r.2 j + z j * std j r.1, lp j, normalDraw (z j)⟩
  have e1 : cs.map Change.prior = List.ofFn prs := by
    simp only [cs, List.map_ofFn]
    rfl
  have e2 : cs.map Change.draw = normalDraws z := by
    simp only [cs, List.map_ofFn]
    rfl
  have e3 : cs.map (fun c => (c.prior.name, PVal.arr (.vec (c.col.set i c.new)))) =
      List.ofFn fun j => ((prs j).name, PVal.arr (.vec ((l.set i (newValues std r z)).map fun r => r.2 j))) := by
    simp only [cs, List.map_ofFn]
    congr 1
    funext j
    simp only [Function.comp, List.map_set]
    rfl
  have e4 : cs.map Change.ratio = List.ofFn lp := by
    simp only [cs, List.map_ofFn]
    rfl
  have hp := perturbPriors_at (hst.pos l s hl i hm) cs [] (.fin 0) (by
      simp only [dkeys, List.map_nil, List.nil_append]
      have : cs.map (fun c => c.prior.name) = List.ofFn fun j => (prs j).name := by
        simp only [cs, List.map_ofFn]
        rfl
      rw [this]
      exact (List.nodup_append.1 (hst.keys (l.map Prod.fst))).2.1) (by
    intro c hc'
    obtain ⟨j, rfl⟩ := List.mem_ofFn.1 hc'
    refine ⟨hst.get l s hl j, ?_, h1 j⟩
    rw [List.getElem?_map, List.getElem?_eq_getElem hm]
    rfl)
  rw [e1, e2, e3, e4, List.nil_append] at hp
  refine ⟨.mk s.n (dupdate s.vals (List.ofFn fun j => ((prs j).name,
    PVal.arr (.vec ((l.set i (newValues std r z)).map fun r => r.2 j))))) s.kd, (List.ofFn lp).foldl PyF.add (.fin 0), ?_,
    fun rest => ?_, ?_⟩
  rotate_left
  · unfold PSFunc.run
    have hn : s.n ≠ 0 := by
      rw [hl.1]
      omega
    refine (M.bind_of (M.randIdx_run hn _ _)).trans ?_
    have : (indexDraw m).n % s.n = i := by
      rw [hl.1]
      rfl
    rw [this]
    exact (M.bind_of (hp rest)).trans rfl
  · intro hpos
    rw [priorDens_pos_iff] at hpos
    have e5 : (List.ofFn lp) = (List.ofFn fun j => max (dens j r.1 (r.2 j + z j * std j r.1)) 0 / dens j r.1 (r.2 j)).map logOf := by
      rw [List.map_ofFn]
      congr 1
      funext j
      exact h2 j (hpos j)
    have e6 : PyF.fin 0 = logOf 1 := by
      rw [logOf_one]
    rw [e5, e6, foldl_logOf _ _ zero_le_one, one_mul, List.prod_ofFn, prod_ratio hpos]
    · rfl
    · intro x hx
      obtain ⟨j, rfl⟩ := List.mem_ofFn.1 hx
      exact div_nonneg (le_max_right _ _) (hpos j).le
  · refine ⟨?_, ?_⟩
    · rw [List.length_set]
      exact hl.1
    · change dupdate s.vals _ = _
      rw [hl.2]
      have e7 : (l.set i (newValues std r z)).map Prod.fst = l.map Prod.fst := by
        rw [List.map_set]
        have h3 : i < (l.map Prod.fst).length := by rw [List.length_map]; exact hm
        have h4 : (newValues std r z).1 = (l.map Prod.fst)[i] := by
          rw [List.getElem_map]
          rfl
        rw [h4]
        exact List.set_getElem_self h3
      rw [e7]
      refine dupdate_all ?_ ?_
      · have := hst.keys (l.map Prod.fst)
        unfold dkeys at this ⊢
        rw [List.map_append, List.map_ofFn]
        exact this
      · unfold dkeys
        rw [List.map_ofFn, List.map_ofFn]
        rfl

/-! ### sites -/

theorem add_fin_zero (r : PyF) : r.add (.fin 0) = r := by
  cases r <;> simp [PyF.add]

/-- A parameter with its rearranged values and what is reported for it. -/
structure Moved where
  prior : Prior
  val : PVal
  ratio : PyF

theorem moveValues_run {old : PSState} {isite : ℕ} {oldSite newSite : Pos} {f : PVal → Except PyErr PVal} :
    ∀ (ws : List Moved) (acc : List (String × PVal)) (r : PyF), (dkeys acc ++ ws.map fun w => w.prior.name).Nodup →
    (∀ w ∈ ws, (∃ v, old.get w.prior.name = some v ∧ f v = .ok w.val) ∧
      (w.prior.hasPosition = true → ∃ x a b, numAt (old.get w.prior.name) isite = .ok x ∧ w.prior.logPrior x oldSite = .ok a ∧
        w.prior.logPrior x newSite = .ok b ∧ w.ratio = b.sub a) ∧ (w.prior.hasPosition = false → w.ratio = .fin 0)) →
    moveValues old isite oldSite newSite f (ws.map fun w => (w.prior.name, Param.prior w.prior)) acc r =
      .ok (acc ++ ws.map fun w => (w.prior.name, w.val), (ws.map Moved.ratio).foldl PyF.add r)
  | [], acc, r, _, _ => by simp [moveValues]
  | w :: ws, acc, r, hn, h => by
    obtain ⟨⟨v, h1, h2⟩, h3, h4⟩ := h w (List.mem_cons_self ..)
    have hk : w.prior.name ∉ dkeys acc := by
      rw [List.nodup_append] at hn
      exact fun hm => hn.2.2 _ hm _ (List.mem_cons_self ..) rfl
    have ih := moveValues_run (old := old) (isite := isite) (oldSite := oldSite) (newSite := newSite) (f := f) ws
      (acc ++ [(w.prior.name, w.val)]) (r.add w.ratio) (by
      unfold dkeys at hn ⊢
      simpa using hn) (fun c hc => h c (List.mem_cons_of_mem _ hc))
    rw [List.map_cons, moveValues.eq_def]
    simp only [h1, h2]
    by_cases hp : w.prior.hasPosition = true
    · obtain ⟨x, a, b, e1, e2, e3, e4⟩ := h3 hp
      rw [h1] at e1
      simp only [hp, if_true, e1]
      rw [e4] at ih
      refine (bindE_ok.2 ⟨r.add (b.sub a), bindE_ok.2 ⟨x, rfl, bindE_ok.2 ⟨a, e2, bindE_ok.2 ⟨b, e3, rfl⟩⟩⟩, bindE_ok.2 ⟨w.val, rfl, ?_⟩⟩)
      rw [dset_new hk, ih]
      simp [e4]
    · have hp' : w.prior.hasPosition = false := by simpa using hp
      have e4 := h4 hp'
      rw [e4, add_fin_zero] at ih
      simp only [hp', Bool.false_eq_true, if_false]
      change moveValues old isite oldSite newSite f _ (dset acc w.prior.name w.val) r = _
      rw [dset_new hk, ih]
      simp [e4, add_fin_zero]

/-- What is reported for the parameters when a site is moved. -/
theorem site_ratio (hd : ∀ j, HasDensity (prs j) loc dom (dens j)) (hsame : ∀ j, SameEverywhere (prs j) dom (dens j))
    {old : PSState} {i : ℕ} {x y : P} (hx : x ∈ dom) (hy : y ∈ dom) {u : Fin k → ℝ}
    (hnum : ∀ j, numAt (old.get (prs j).name) i = .ok (u j)) :
    ∃ lp : Fin k → PyF, (∀ j, ((prs j).hasPosition = true → ∃ c a b, numAt (old.get (prs j).name) i = .ok c ∧
        (prs j).logPrior c (loc x) = .ok a ∧ (prs j).logPrior c (loc y) = .ok b ∧ lp j = b.sub a) ∧
        ((prs j).hasPosition = false → lp j = .fin 0)) ∧
      (0 < priorDens dens (x, u) → (List.ofFn lp).foldl PyF.add (.fin 0) = logOf (priorDens dens (y, u) / priorDens dens (x, u))) := by
  refine ⟨fun j => if (prs j).hasPosition = true then (logOf (dens j y (u j))).sub (logOf (dens j x (u j))) else .fin 0,
    fun j => ⟨fun h => ⟨u j, _, _, hnum j, HasDensity.log (hd j) hx _, HasDensity.log (hd j) hy _, if_pos h⟩, fun h => ?_⟩, fun hpos => ?_⟩
  · exact if_neg (by simp [h])
  · rw [priorDens_pos_iff] at hpos
    have e5 : (List.ofFn fun j => if (prs j).hasPosition = true then (logOf (dens j y (u j))).sub (logOf (dens j x (u j))) else .fin 0) =
        (List.ofFn fun j => max (dens j y (u j)) 0 / dens j x (u j)).map logOf := by
      rw [List.map_ofFn]
      congr 1
      funext j
      have hj : 0 < dens j x (u j) := hpos j
      by_cases h : (prs j).hasPosition = true
      · rw [if_pos h]
        have : logOf (dens j x (u j)) = .fin (Real.log (dens j x (u j))) := if_pos hj
        rw [this, logOf_div hj]
        rfl
      · rw [if_neg h]
        have := hsame j (by simpa using h) y hy x hx
        simp only [Function.comp]
        rw [this, max_eq_left hj.le, div_self hj.ne', logOf_one]
    have e6 : PyF.fin 0 = logOf 1 := by
      rw [logOf_one]
    rw [e5, e6, foldl_logOf _ _ zero_le_one, one_mul, List.prod_ofFn]
    · have := prod_ratio (a := fun j => dens j y (u j)) (b := fun j => dens j x (u j)) hpos
      rw [this]
      rfl
    · intro c hc
      obtain ⟨j, rfl⟩ := List.mem_ofFn.1 hc
      exact div_nonneg (le_max_right _ _) (hpos j).le

end rows

theorem gather_perm {α : Type} {xs : List α} {is is' : List ℕ} (h : is.Perm is') {ys ys' : List α} (h1 : gather xs is = .ok ys)
    (h2 : gather xs is' = .ok ys') : ys.Perm ys' := by
  have e : ∀ {is : List ℕ} {ys : List α}, gather xs is = .ok ys → ys = is.filterMap fun i => xs[i]? := by
    intro is ys h
    rw [gather_ok] at h
    induction h with
    | nil => rfl
    | cons h1 _ ih => rw [List.filterMap_cons_some h1, ← ih]
  rw [e h1, e h2]
  exact h.filterMap _

/-- The draws of a step in the plane. -/
def pairDraw (z : ℝ × ℝ) : List Draw := [normalDraw z.1, normalDraw z.2]

/-- The draws up to the first step that does not leave `D`. -/
noncomputable def landTape {P α : Type} (enc : α → List Draw) (step : P → α → P) (D : Set P) (x : P) (ω : ℕ → α) : List Draw :=
  tape enc ω (firstIn D (fun j => step x (ω j)) + 1)

open Classical in
theorem until_lands {P α : Type} {enc : α → List Draw} (henc : ∀ z, enc z ≠ []) {step : P → α → P} {D : Set P} {x : P}
    {m : M (Option P)} (hm : ∀ z rest, m (enc z ++ rest) = (.ok (if step x z ∈ D then some (step x z) else none), rest))
    {ω : ℕ → α} (h : ∃ j, step x (ω j) ∈ D) (rest : List Draw) :
    M.until m (landTape enc step D x ω ++ rest) = (.ok (landIn step D x ω), rest) := by
  obtain ⟨ha, hb⟩ := firstIn_spec (x := fun k => step x (ω k)) h
  unfold M.until
  refine untilFuel_first hm rest _ _ ω _ ?_ (fun j hj => if_neg (hb j hj)) (if_pos ha)
  have := tape_length (enc := enc) henc ω (firstIn D (fun k => step x (ω k)) + 1)
  rw [List.length_append]
  unfold landTape
  omega

theorem landIn_in {P α : Type} {step : P → α → P} {D : Set P} {x : P} {ω : ℕ → α} (h : ∃ j, step x (ω j) ∈ D) :
    landIn step D x ω ∈ D := (firstIn_spec (x := fun k => step x (ω k)) h).1

theorem perturbSite_line {v : Vor1} {x : ℝ} {ω : ℕ → ℝ} (h : ∃ j, lineStep v x (ω j) ∈ Set.Icc v.vmin v.vmax) (rest : List Draw) :
    v.perturbSite x (landTape gaussDraw (lineStep v) (Set.Icc v.vmin v.vmax) x ω ++ rest) =
      (.ok (landIn (lineStep v) (Set.Icc v.vmin v.vmax) x ω), rest) := by
  classical
  unfold Vor1.perturbSite
  refine until_lands (enc := gaussDraw) (by simp [gaussDraw]) (fun z rest => (M.bind_of (M.normalvariate_run _ _ _ _)).trans ?_) h rest
  unfold lineStep
  refine congrArg (fun y => (Except.ok y, rest)) ?_
  by_cases hc : x + (0 + z * v.std) ≥ v.vmin ∧ x + (0 + z * v.std) ≤ v.vmax
  · exact (if_pos hc).trans (if_pos (show x + (0 + z * v.std) ∈ Set.Icc v.vmin v.vmax from hc)).symm
  · exact (if_neg hc).trans (if_neg (show ¬ x + (0 + z * v.std) ∈ Set.Icc v.vmin v.vmax from hc)).symm

theorem perturbSite_plane {v : Vor2} (hs : 0 ≤ v.std.1 ∧ 0 ≤ v.std.2) {x : ℝ × ℝ} {ω : ℕ → ℝ × ℝ}
    (h : ∃ j, planeStep v x (ω j) ∈ domain2 v) (rest : List Draw) :
    v.perturbSite x (landTape pairDraw (planeStep v) (domain2 v) x ω ++ rest) =
      (.ok (landIn (planeStep v) (domain2 v) x ω), rest) := by
  classical
  unfold Vor2.perturbSite
  have hn : ∀ {σ : ℝ}, 0 ≤ σ → ∀ z rest, M.npNormal 0 σ (normalDraw z :: rest) = (.ok (0 + z * σ), rest) := by
    intro σ hσ z rest
    unfold M.npNormal
    rw [if_neg (not_lt.2 hσ)]
    exact M.normalvariate_run _ _ _ _
  refine until_lands (enc := pairDraw) (by simp [pairDraw]) (fun z rest => (M.bind_of (hn hs.1 _ _)).trans ((M.bind_of (hn hs.2 _ _)).trans ?_)) h rest
  unfold planeStep
  refine congrArg (fun y => (Except.ok y, rest)) ?_
  refine if_congr ?_ rfl rfl
  unfold domain2 InDomain
  cases hp : v.polygon with
  | none =>
    simp only [Set.mem_ofPred_eq]
    constructor
    · rintro ⟨⟨h1, h2⟩, h3, h4⟩
      exact ⟨⟨⟨h1, h3⟩, h2, h4⟩, fun _ hc => by cases hc⟩
    · rintro ⟨⟨⟨h1, h3⟩, h2, h4⟩, -⟩
      exact ⟨⟨h1, h2⟩, h3, h4⟩
  | some inside =>
    simp only [Set.mem_ofPred_eq]
    constructor
    · intro h1
      exact ⟨v.bounds inside hp _ h1, fun _ hc => by injection hc with hc; rw [← hc]; exact h1⟩
    · rintro ⟨-, h1⟩
      exact h1 _ rfl

end BB.Lemmas

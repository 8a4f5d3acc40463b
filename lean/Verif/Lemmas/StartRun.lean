import Verif.Spec.WholeStart
import Verif.Lemmas.StartLaw
import Verif.Lemmas.Save

/-!
# What the library computes at the start of whole inversions
-/

namespace BB.Lemmas

open BB Spec Props MeasureTheory ProbabilityTheory

/-! ### loops -/

theorem forEach_tapes {α β Ω : Type} {f : α → M β} {g : α → Ω → β} {enc : Ω → List Draw} :
    ∀ {n : ℕ} (l : Fin n → α) (ω : Fin n → Ω), (∀ i t, f (l i) (enc (ω i) ++ t) = (.ok (g (l i) (ω i)), t)) → ∀ t,
    M.forEach f (List.ofFn l) ((List.ofFn fun i => enc (ω i)).flatten ++ t) = (.ok (List.ofFn fun i => g (l i) (ω i)), t)
  | 0, _, _, _, _ => rfl
  | n + 1, l, ω, h, t => by
    rw [List.ofFn_succ, List.ofFn_succ, List.ofFn_succ, M.forEach, List.flatten_cons, List.append_assoc]
    refine (M.bind_of (h 0 _)).trans ?_
    exact (M.bind_of (forEach_tapes (fun i => l i.succ) (fun i => ω i.succ) (fun i t => h i.succ t) t)).trans rfl

theorem times_tapes {β Ω : Type} {f : M β} {g : Ω → β} {enc : Ω → List Draw} {n : ℕ} (ω : Fin n → Ω)
    (h : ∀ i t, f (enc (ω i) ++ t) = (.ok (g (ω i)), t)) (t : List Draw) :
    M.times n f ((List.ofFn fun i => enc (ω i)).flatten ++ t) = (.ok (List.ofFn fun i => g (ω i)), t) := by
  unfold M.times
  have e : List.range n = List.ofFn fun i : Fin n => (i : ℕ) := List.ext_getElem (by simp) fun i h1 h2 => by simp
  rw [e]
  exact forEach_tapes (f := fun _ : ℕ => f) (g := fun _ => g) _ ω h t

theorem flatten_single {α : Type} : ∀ l : List α, (l.map fun a => [a]).flatten = l
  | [] => rfl
  | a :: l => by
    rw [List.map_cons, List.flatten_cons, flatten_single l]
    rfl

theorem ofFn_single {α : Type} {n : ℕ} (f : Fin n → α) : (List.ofFn fun i => [f i]).flatten = List.ofFn f := by
  rw [← flatten_single (List.ofFn f), List.map_ofFn]
  rfl

theorem mapM_gets {α β : Type} {f : α → Except PyErr β} {g : α → β} : ∀ l : List α, (∀ a ∈ l, f a = .ok (g a)) →
    l.mapM f = .ok (l.map g)
  | [], _ => rfl
  | a :: l, h => by
    rw [List.mapM_cons, h a (List.mem_cons_self ..), mapM_gets l fun a ha => h a (List.mem_cons_of_mem _ ha)]
    rfl

theorem getAll_ok {hy : Hyper} (hf : ∀ f, hy ≠ .plane f) {P : Type} {loc : P → Pos} {g : P → ℝ} {xs : List P}
    (h : ∀ x ∈ xs, hy.get (loc x) = .ok (g x)) : hy.getAll (xs.map loc) = .ok (xs.map g) := by
  cases hy with
  | const a =>
    unfold Hyper.getAll
    simp only [List.map_map]
    congr 1
    refine List.map_congr_left fun x hx => ?_
    have := h x hx
    unfold Hyper.get at this
    injection this with this
  | line as bs =>
    unfold Hyper.getAll
    rw [mapM_map_ok xs h]
  | plane f => exact (hf f rfl).elim
where
  mapM_map_ok {P : Type} {loc : P → Pos} {g : P → ℝ} {hy : Hyper} (xs : List P) (h : ∀ x ∈ xs, hy.get (loc x) = .ok (g x)) :
      (xs.map loc).mapM hy.get = .ok (xs.map g) := by
    rw [List.mapM_map]
    exact mapM_gets xs h

/-! ### the values of a parameter -/

theorem forEach_congr {α β γ : Type} {f : α → M γ} {g : β → M γ} {P : Type} {a : P → α} {b : P → β} : ∀ (xs : List P),
    (∀ x ∈ xs, f (a x) = g (b x)) → M.forEach f (xs.map a) = M.forEach g (xs.map b)
  | [], _ => rfl
  | x :: xs, h => by
    rw [List.map_cons, List.map_cons, M.forEach, M.forEach, h x (List.mem_cons_self ..),
      forEach_congr xs fun x hx => h x (List.mem_cons_of_mem _ hx)]

theorem zip_map_map {P β γ : Type} (a : P → β) (b : P → γ) : ∀ xs : List P, (xs.map a).zip (xs.map b) = xs.map fun x => (a x, b x)
  | [] => rfl
  | x :: xs => by
    rw [List.map_cons, List.map_cons, List.zip_cons_cons, zip_map_map a b xs]
    rfl

/-- The values are drawn one after the other. -/
theorem init_sample {P : Type} [MeasurableSpace P] {pr : Prior} {loc : P → Pos} {dom : Set P} {dens : P → ℝ → ℝ}
    (h : HasDensity pr loc dom dens) (hc : NotCustom pr) (hi : pr.init = none) (hp : NotPlane pr) {xs : List P} (hne : xs ≠ [])
    (hx : ∀ x ∈ xs, x ∈ dom) :
    pr.initialize (xs.map loc) = (M.forEach pr.sample (xs.map loc) >>= fun vs => pure (.vec vs)) := by
  funext t
  unfold HasDensity at h
  unfold NotPlane at hp
  unfold Prior.initialize
  rw [hi]
  simp only
  match hd : pr.dist with
  | .uniform vmin vmax =>
    rw [hd] at h
    obtain ⟨a, b, -, -, hab, -⟩ := h
    simp only
    have hmap : ((xs.map loc).mapM fun q => do
        let a' ← vmin.get q
        let b' ← vmax.get q
        return (a', b') : Except PyErr (List (ℝ × ℝ))) = .ok (xs.map fun x => (a x, b x)) := by
      rw [List.mapM_map]
      refine mapM_gets xs fun x hxm => ?_
      obtain ⟨h1, h2, -⟩ := hab x (hx x hxm)
      change (vmin.get (loc x) >>= fun a' => vmax.get (loc x) >>= fun b' => pure (a', b')) = _
      rw [h1, h2]
      rfl
    refine (M.bind_of (show M.lift _ t = (.ok (xs.map fun x => (a x, b x)), t) from congrArg (fun r => (r, t)) hmap)).trans ?_
    rw [if_neg (by cases xs with
      | nil => exact (hne rfl).elim
      | cons => simp)]
    rw [forEach_congr (g := pr.sample) (b := loc) xs fun x hxm => ?_]
    · obtain ⟨h1, h2, -⟩ := hab x (hx x hxm)
      funext t
      unfold Prior.sample
      rw [hd]
      simp only [h1, h2]
      exact ((M.bind_of rfl).trans (M.bind_of rfl)).symm
  | .gaussian mean std =>
    rw [hd] at h hp
    obtain ⟨m, s, -, -, hms, -⟩ := h
    simp only
    rw [getAll_ok hp.1 fun x hxm => (hms x (hx x hxm)).1, getAll_ok hp.2 fun x hxm => (hms x (hx x hxm)).2.1]
    refine (M.bind_of rfl).trans ((M.bind_of rfl).trans ?_)
    rw [zip_map_map, forEach_congr (g := pr.sample) (b := loc) xs fun x hxm => ?_]
    · obtain ⟨h1, h2, h3⟩ := hms x (hx x hxm)
      funext t
      unfold Prior.sample M.npNormal
      rw [hd, if_neg (not_lt.2 h3.le)]
      simp only [h1, h2]
      exact ((M.bind_of rfl).trans (M.bind_of rfl)).symm
  | .laplace mean scale =>
    rw [hd] at h hp
    obtain ⟨m, s, -, -, hms, -⟩ := h
    simp only
    rw [getAll_ok hp.1 fun x hxm => (hms x (hx x hxm)).1, getAll_ok hp.2 fun x hxm => (hms x (hx x hxm)).2.1]
    refine (M.bind_of rfl).trans ((M.bind_of rfl).trans ?_)
    rw [zip_map_map, forEach_congr (g := pr.sample) (b := loc) xs fun x hxm => ?_]
    · obtain ⟨h1, h2, h3⟩ := hms x (hx x hxm)
      funext t
      unfold Prior.sample
      rw [hd]
      simp only [h1, h2]
      exact ((M.bind_of rfl).trans (M.bind_of rfl)).symm
  | .custom f g sm => exact (hc f g sm hd).elim

/-- The values of a parameter at sites. -/
theorem init_at {P : Type} [MeasurableSpace P] {pr : Prior} {loc : P → Pos} {dom : Set P} {dens : P → ℝ → ℝ}
    (h : HasDensity pr loc dom dens) (hc : NotCustom pr) (hi : pr.init = none) (hp : NotPlane pr) {value : P → ℝ → ℝ}
    (hv : ∀ x ∈ dom, ∀ ω rest, pr.sample (loc x) (devDraw pr.dist ω :: rest) = (.ok (value x ω), rest)) {n : ℕ} (hn : 1 ≤ n)
    (xs : Fin n → P) (hx : ∀ i, xs i ∈ dom) (d : Fin n → ℝ) (t : List Draw) :
    pr.initialize ((List.ofFn xs).map loc) ((List.ofFn fun i => devDraw pr.dist (d i)) ++ t) =
      (.ok (.vec (List.ofFn fun i => value (xs i) (d i))), t) := by
  rw [init_sample h hc hi hp (xs := List.ofFn xs) (by
    intro e
    have := congrArg List.length e
    rw [List.length_ofFn] at this
    simp at this
    omega) fun x hx' => by obtain ⟨i, rfl⟩ := List.mem_ofFn.1 hx'; exact hx i]
  have h1 := forEach_tapes (f := fun x => pr.sample (loc x)) (g := value) (enc := fun ω => [devDraw pr.dist ω]) xs d
    (fun i t => hv _ (hx i) _ t) t
  rw [ofFn_single] at h1
  have h2 : M.forEach pr.sample ((List.ofFn xs).map loc) = M.forEach (fun x => pr.sample (loc x)) (List.ofFn xs) := by
    have := forEach_congr (f := pr.sample) (g := fun x => pr.sample (loc x)) (a := loc) (b := id) (List.ofFn xs) fun x _ => rfl
    rw [List.map_id] at this
    exact this
  rw [h2]
  exact (M.bind_of h1).trans rfl

/-- Without sites, the positions do not matter. -/
theorem init_nowhere {pr : Prior} {dens : Unit → ℝ → ℝ} (h : HasDensity pr (fun _ : Unit => .none) Set.univ dens) (hc : NotCustom pr)
    (hi : pr.init = none) {value : Unit → ℝ → ℝ}
    (hv : ∀ ω rest, pr.sample .none (devDraw pr.dist ω :: rest) = (.ok (value () ω), rest)) {n : ℕ} (hn : 1 ≤ n)
    (junk : List Draw) (hj : junk.length = n) (d : Fin n → ℝ) (t : List Draw) :
    (garbage n >>= fun g => pr.initialize g) (junk ++ ((List.ofFn fun i => devDraw pr.dist (d i)) ++ t)) =
      (.ok (.vec (List.ofFn fun i => value () (d i))), t) := by
  refine (M.bind_of (garbage_run n junk _ hj)).trans ?_
  have hz : (junk.map fun d => Pos.one d.z) = (List.ofFn fun i : Fin n => (junk[i]'(hj ▸ i.2)).z).map Pos.one := by
    refine List.ext_getElem (by simp [hj]) fun i h1 h2 => by simp
  rw [hz]
  have h0 := h
  unfold HasDensity at h
  have key : HasDensity pr Pos.one Set.univ (fun _ : ℝ => dens ()) ∧ NotPlane pr ∧ ∀ x, pr.sample (.one x) = pr.sample .none := by
    unfold HasDensity NotPlane Prior.sample
    match hd : pr.dist with
    | .uniform a b =>
      rw [hd] at h
      obtain ⟨f, g, -, -, hfg, rfl⟩ := h
      obtain ⟨h1, h2, h3⟩ := hfg () trivial
      obtain rfl := hyper_const h1
      obtain rfl := hyper_const h2
      exact ⟨⟨fun _ => f (), fun _ => g (), measurable_const, measurable_const, fun _ _ => ⟨rfl, rfl, h3⟩, rfl⟩, trivial, fun _ => rfl⟩
    | .gaussian a b =>
      rw [hd] at h
      obtain ⟨f, g, -, -, hfg, rfl⟩ := h
      obtain ⟨h1, h2, h3⟩ := hfg () trivial
      obtain rfl := hyper_const h1
      obtain rfl := hyper_const h2
      exact ⟨⟨fun _ => f (), fun _ => g (), measurable_const, measurable_const, fun _ _ => ⟨rfl, rfl, h3⟩, rfl⟩,
        ⟨by simp, by simp⟩, fun _ => rfl⟩
    | .laplace a b =>
      rw [hd] at h
      obtain ⟨f, g, -, -, hfg, rfl⟩ := h
      obtain ⟨h1, h2, h3⟩ := hfg () trivial
      obtain rfl := hyper_const h1
      obtain rfl := hyper_const h2
      exact ⟨⟨fun _ => f (), fun _ => g (), measurable_const, measurable_const, fun _ _ => ⟨rfl, rfl, h3⟩, rfl⟩,
        ⟨by simp, by simp⟩, fun _ => rfl⟩
    | .custom f g sm => exact (hc f g sm hd).elim
  exact init_at key.1 hc hi key.2.1 (value := fun _ => value ()) (fun x _ ω rest => by rw [key.2.2]; exact hv ω rest) hn _
    (fun _ => trivial) d t

/-! ### the parameters of a space -/

theorem initAt_all : ∀ (ps : ParamList) {k : ℕ} (prs : Fin k → Prior) (sites : List Pos) (vals : List (String × PVal))
    (enc : Fin k → List Draw) (arr : Fin k → Arr),
    ps.toList = List.ofFn (fun j => ((prs j).name, Param.prior (prs j))) → (Function.Injective fun j => (prs j).name) →
    (∀ j, (prs j).name ∉ dkeys vals) → (∀ j t, (prs j).initialize sites (enc j ++ t) = (.ok (arr j), t)) → ∀ t,
    ps.initAt sites vals ((List.ofFn enc).flatten ++ t) = (.ok (vals ++ List.ofFn fun j => ((prs j).name, .arr (arr j))), t)
  | .nil, k, prs, sites, vals, enc, arr, h, _, _, _, t => by
    have hk : k = 0 := by
      have := congrArg List.length h
      rw [List.length_ofFn] at this
      exact this.symm
    subst hk
    rw [ParamList.initAt]
    simp
    rfl
  | .cons name q rest, k, prs, sites, vals, enc, arr, h, hinj, hnot, hrun, t => by
    match k, prs, enc, arr, h, hinj, hnot, hrun with
    | 0, prs, enc, arr, h, _, _, _ => simp [ParamList.toList] at h
    | k + 1, prs, enc, arr, h, hinj, hnot, hrun =>
      rw [ParamList.toList, List.ofFn_succ] at h
      obtain ⟨h1, h2⟩ := List.cons.inj h
      obtain ⟨rfl, rfl⟩ := Prod.mk.inj h1
      rw [ParamList.initAt, List.ofFn_succ, List.flatten_cons, List.append_assoc, Param.initialize]
      refine (M.bind_of ((M.bind_of (hrun 0 _)).trans rfl)).trans ?_
      rw [dset_new (hnot 0)]
      rw [initAt_all rest (fun j => prs j.succ) sites _ (fun j => enc j.succ) (fun j => arr j.succ) h2
        (fun i j hij => Fin.succ_injective _ (hinj hij)) (fun j hj => ?_) (fun j t => hrun j.succ t) t]
      · rw [List.append_assoc, List.ofFn_succ]
        rfl
      · rw [dkeys, List.map_append, List.mem_append] at hj
        rcases hj with hj | hj
        · exact hnot j.succ hj
        · have e : (prs j.succ).name = (prs 0).name := by simpa using hj
          exact absurd (hinj e) (Fin.succ_ne_zero j)

theorem initPlain_all : ∀ (ps : ParamList) {k : ℕ} (prs : Fin k → Prior) (n : ℕ) (enc : Fin k → List Draw) (arr : Fin k → Arr),
    ps.toList = List.ofFn (fun j => ((prs j).name, Param.prior (prs j))) →
    (∀ j t, (garbage n >>= fun g => (prs j).initialize g) (enc j ++ t) = (.ok (arr j), t)) → ∀ t,
    ps.initPlain n ((List.ofFn enc).flatten ++ t) = (.ok (List.ofFn fun j => ((prs j).name, .arr (arr j))), t)
  | .nil, k, prs, n, enc, arr, h, _, t => by
    have hk : k = 0 := by
      have := congrArg List.length h
      rw [List.length_ofFn] at this
      exact this.symm
    subst hk
    rw [ParamList.initPlain]
    simp
    rfl
  | .cons name q rest, k, prs, n, enc, arr, h, hrun, t => by
    match k, prs, enc, arr, h, hrun with
    | 0, prs, enc, arr, h, _ => simp [ParamList.toList] at h
    | k + 1, prs, enc, arr, h, hrun =>
      rw [ParamList.toList, List.ofFn_succ] at h
      obtain ⟨h1, h2⟩ := List.cons.inj h
      obtain ⟨rfl, rfl⟩ := Prod.mk.inj h1
      rw [ParamList.initPlain, List.ofFn_succ, List.flatten_cons, List.append_assoc]
      have hr := hrun 0 ((List.ofFn fun j : Fin k => enc j.succ).flatten ++ t)
      have ih := initPlain_all rest (fun j => prs j.succ) n (fun j => enc j.succ) (fun j => arr j.succ) h2 (fun j t => hrun j.succ t) t
      generalize hT : enc 0 ++ ((List.ofFn fun j : Fin k => enc j.succ).flatten ++ t) = T at hr ⊢
      obtain ⟨g, u, hg, hr⟩ := M.bind_ok.1 hr
      refine (M.bind_of hg).trans ?_
      rw [Param.initialize]
      refine (M.bind_of ((M.bind_of hr).trans rfl)).trans ((M.bind_of ih).trans ?_)
      rw [List.ofFn_succ]
      rfl

/-! ### the start of a space -/

section space

variable {k : ℕ} {sp : Space} {prs : Fin k → Prior}

theorem startTop_bounds (h : Begins sp prs) : sp.info.lo ≤ startTop sp.info ∧ startTop sp.info ≤ sp.info.hi := by
  have h1 := h.order
  unfold Info.lo Info.hi at h1 ⊢
  unfold startTop
  cases hn : sp.info.nDim with
  | some n => simp
  | none =>
    obtain ⟨h2, h3⟩ := h.range hn
    simp only [hn, Option.getD_none] at h1 ⊢
    have h4 : (sp.info.nMin : ℝ) ≤ sp.info.nMax := by exact_mod_cast h1
    constructor
    · refine Nat.le_floor ?_
      have : 0 ≤ sp.info.initRange * ((sp.info.nMax : ℝ) - sp.info.nMin) := mul_nonneg h2 (by linarith)
      linarith
    · refine Nat.floor_le_of_le ?_
      nlinarith

theorem startDim_run (h : Begins sp prs) (m : ℕ) (t : List Draw) :
    sp.info.initDim ((if sp.info.transD then [indexDraw m] else []) ++ t) = (.ok (startDim sp.info m), t) := by
  obtain ⟨hb1, hb2⟩ := startTop_bounds h
  unfold Info.initDim startDim Info.transD
  cases hn : sp.info.nDim with
  | some n =>
    have e1 : sp.info.lo = n := by unfold Info.lo; rw [hn]; rfl
    have e2 : startTop sp.info = n := by unfold startTop; rw [hn]
    rw [e1, e2, Nat.sub_self, Nat.mod_one]
    rfl
  | none =>
    have e1 : sp.info.lo = sp.info.nMin := by unfold Info.lo; rw [hn]; rfl
    rw [e1] at hb1 ⊢
    have e2 : sp.info.initMax = (startTop sp.info : ℤ) := by
      obtain ⟨h2, h3⟩ := h.range hn
      have h1 := h.order
      unfold Info.lo Info.hi at h1
      simp only [hn, Option.getD_none] at h1
      have h4 : (sp.info.nMin : ℝ) ≤ sp.info.nMax := by exact_mod_cast h1
      have h5 : 0 ≤ ((sp.info.nMax : ℝ) - sp.info.nMin) * sp.info.initRange := mul_nonneg (by linarith) h2
      have h6 : (0 : ℝ) ≤ sp.info.nMin := Nat.cast_nonneg _
      unfold Info.initMax pyInt startTop
      rw [hn, if_pos (by linarith), ← Int.natCast_floor_eq_floor (by linarith)]
      simp only
      congr 2
      ring
    simp only [Option.isNone_none, if_true]
    rw [e2, if_neg (by exact_mod_cast not_lt.2 hb1), Int.toNat_natCast]
    exact M.randint_run hb1 (indexDraw m) t

theorem startPart_absCont {R : Type} [MeasurableSpace R] {ρ : Measure R} [IsProbabilityMeasure ρ] {c : ENNReal} (h : Begins sp prs) :
    c • transPrior ρ sp.info.lo (startTop sp.info) ≪ transPrior ρ sp.info.lo sp.info.hi := by
  obtain ⟨-, hb⟩ := startTop_bounds h
  refine Measure.smul_absolutelyContinuous.trans (Measure.AbsolutelyContinuous.mk fun A hA h0 => ?_)
  rw [← lintegral_indicator_one hA, lintegral_transPrior _ _ _ (measurable_one.indicator hA), Finset.sum_eq_zero_iff] at h0 ⊢
  intro n hn
  rw [Finset.mem_Ico] at hn
  exact h0 n (Finset.mem_Ico.2 (by omega))

/-- The rows of a new state. -/
noncomputable def newRows {P Ω : Type} (site : Ω → P) (value : Fin k → P → ℝ → ℝ) {n : ℕ} (e : Equiv.Perm (Fin n)) (ω : Fin n → Ω)
    (d : Fin n → Fin k → ℝ) : List (P × (Fin k → ℝ)) :=
  List.ofFn fun i => (site (ω (e i)), fun j => value j (site (ω (e i))) (d i j))

theorem newRows_perm {P Ω : Type} (site : Ω → P) (value : Fin k → P → ℝ → ℝ) {n : ℕ} (e : Equiv.Perm (Fin n)) (ω : Fin n → Ω)
    (d : Fin n → Fin k → ℝ) (τ : (Fin n → Ω) → Equiv.Perm (Fin n)) (hτ : τ ω = e⁻¹) :
    (List.ofFn (shuffledRows site value τ (ω, d))).Perm (newRows site value e ω d) := by
  have h := e.ofFn_comp_perm (shuffledRows site value τ (ω, d))
  have e1 : newRows site value e ω d = List.ofFn (shuffledRows site value τ (ω, d) ∘ e) := by
    unfold newRows shuffledRows
    congr 1
    funext i
    simp only [Function.comp, hτ]
    rw [show (e⁻¹ : Equiv.Perm (Fin n)) (e i) = i from e.symm_apply_apply i]
  rw [e1]
  exact h.symm

theorem newRows_fst {P Ω : Type} (site : Ω → P) (value : Fin k → P → ℝ → ℝ) {n : ℕ} (e : Equiv.Perm (Fin n)) (ω : Fin n → Ω)
    (d : Fin n → Fin k → ℝ) : (newRows site value e ω d).map Prod.fst = List.ofFn fun i => site (ω (e i)) := by
  unfold newRows
  rw [List.map_ofFn]
  rfl

theorem newRows_snd {P Ω : Type} (site : Ω → P) (value : Fin k → P → ℝ → ℝ) {n : ℕ} (e : Equiv.Perm (Fin n)) (ω : Fin n → Ω)
    (d : Fin n → Fin k → ℝ) (j : Fin k) : ((newRows site value e ω d).map fun r => r.2 j) =
      List.ofFn fun i => value j (site (ω (e i))) (d i j) := by
  unfold newRows
  rw [List.map_ofFn]
  rfl

/-- What the start of a block gives. -/
def Makes (sp : Space) (S : Beginning) : Prop :=
  IsProbabilityMeasure S.draws ∧ IsProbabilityMeasure S.law ∧ S.law ≪ S.block.prior ∧ ∃ x : S.Θ → S.block.X, MeasurePreserving x S.draws S.law ∧
    ∀ᵐ θ ∂S.draws, ∃ st, (∀ t, sp.initialize (S.enc θ ++ t) = (.ok st, t)) ∧
      (x θ ∈ S.block.possible → ∀ q, dget q sp.info.name = some (.ps st) → S.block.holds q ∧ S.block.same (x θ) (S.block.val q))

theorem rows_makes {P Θ Ω : Type} [MeasurableSpace P] [MeasurableSpace Θ] [MeasurableSpace Ω]
    {col : List P → List (String × PVal)} {dom : Set P} {apart ok : List P → Prop} {σ : Measure P} [IsProbabilityMeasure σ]
    {dens : Fin k → P → ℝ → ℝ} {stay : P → ℝ} {draws : Measure Θ} {enc : PSFunc → PSState → Θ → List Draw}
    {law : Measure Ω} [IsProbabilityMeasure law] {tape : Ω → List Draw} {junk : ℕ → Fin k → List Draw} (h : Begins sp prs) (hlo : 1 ≤ sp.info.lo)
    (hcol : ∀ l st, Props.Holds col prs l st → decode col prs st = ofRows l)
    (hm : ∀ j, Measurable fun z : P × ℝ => dens j z.1 z.2) {site : Ω → P} (hs : Measurable site) (hσ : law.map site = σ)
    (hdom : ∀ᵐ x ∂σ, x ∈ dom) {value : Fin k → P → ℝ → ℝ} (hv : ∀ j, Measurable fun z : P × ℝ => value j z.1 z.2)
    (hvl : ∀ j, ∀ x ∈ dom, (devLaw (prs j).dist).map (value j x) = volume.withDensity fun v => ENNReal.ofReal (dens j x v))
    (e : ∀ n, (Fin n → Ω) → Equiv.Perm (Fin n)) (he : ∀ n σ, MeasurableSet {ω | e n ω = σ}) (good : Ω → Prop) (hgood : ∀ᵐ ω ∂law, good ω)
    (hap : ∀ xs ys : List P, xs.Perm ys → apart xs → apart ys) (hok : ∀ n (ω : Fin n → Ω), ok (List.ofFn fun i => site (ω (e n ω i))))
    (hrun : ∀ n, 1 ≤ n → ∀ (ω : Fin n → Ω), (∀ i, good (ω i)) → (∀ i, site (ω i) ∈ dom) → ∀ (d : Fin n → Fin k → ℝ) (m : ℕ), startDim sp.info m = n →
      ∃ st, (∀ t, sp.initialize ((if sp.info.transD then [indexDraw m] else []) ++ ((List.ofFn fun i => tape (ω i)).flatten ++
        ((List.ofFn fun j : Fin k => junk n j ++ List.ofFn fun i => devDraw (prs j).dist (d i j)).flatten ++ t))) = (.ok st, t)) ∧
      Props.Holds col prs (newRows site value (e n ω) ω d) st) :
    Makes sp (rowsBeginning sp prs col dom apart ok σ dens stay draws enc law tape junk) := by
  obtain ⟨hb1, hb2⟩ := startTop_bounds h
  have hK : sp.info.hi.factorial ≠ 0 := Nat.factorial_ne_zero _
  have hd : startTop sp.info - sp.info.lo + 1 ∣ sp.info.hi.factorial := Nat.dvd_factorial (Nat.succ_pos _) (by omega)
  have hp := uniformNat_prob hK
  have hτ : ∀ n σ, MeasurableSet {ω | (e n ω)⁻¹ = σ} := by
    intro n σ
    have : {ω | (e n ω)⁻¹ = σ} = {ω | e n ω = σ⁻¹} := by
      ext ω
      exact inv_eq_iff_eq_inv
    rw [this]
    exact he n σ⁻¹
  have hl := startModel_law hm hs hσ hdom hv hvl (τ := fun n ω => (e n ω)⁻¹) hτ hb1 hK hd
  have hr : IsProbabilityMeasure (rowLaw σ dens) := by
    rw [← row_law hm hs hσ hdom hv hvl]
    exact Measure.isProbabilityMeasure_map (Measurable.aemeasurable
      ((hs.comp measurable_fst).prodMk (measurable_pi_lambda _ fun j =>
        (hv j).comp ((hs.comp measurable_fst).prodMk ((measurable_pi_apply j).comp measurable_snd)))))
  have hprob : IsProbabilityMeasure ((uniformNat sp.info.hi.factorial).prod ((Measure.infinitePi fun _ : ℕ => law).prod
    (Measure.infinitePi fun _ : ℕ => Measure.pi fun j => devLaw (prs j).dist))) := inferInstance
  have hlp : IsProbabilityMeasure (((startTop sp.info - sp.info.lo + 1 : ℕ) : ENNReal)⁻¹ •
      transPrior (rowLaw σ dens) sp.info.lo (startTop sp.info)) := by
    rw [← hl.map_eq]
    exact Measure.isProbabilityMeasure_map hl.measurable.aemeasurable
  refine ⟨hprob, hlp, startPart_absCont h, _, hl, ?_⟩
  have hall : ∀ᵐ ω ∂Measure.infinitePi fun _ : ℕ => law, ∀ i, good (ω i) ∧ site (ω i) ∈ dom := by
    refine ae_all_iff.2 fun i => ?_
    refine (measurePreserving_eval_infinitePi (fun _ : ℕ => law) i).quasiMeasurePreserving.ae
      (p := fun ω => good ω ∧ site ω ∈ dom) ?_
    exact hgood.and (ae_of_ae_map hs.aemeasurable (hσ ▸ hdom))
  have h2 : ∀ᵐ θ ∂(uniformNat sp.info.hi.factorial).prod ((Measure.infinitePi fun _ : ℕ => law).prod
      (Measure.infinitePi fun _ : ℕ => Measure.pi fun j => devLaw (prs j).dist)), ∀ i, good (θ.2.1 i) ∧ site (θ.2.1 i) ∈ dom :=
    Measure.quasiMeasurePreserving_snd.ae (Measure.quasiMeasurePreserving_fst.ae hall)
  refine h2.mono fun θ hθ => ?_
  have hdim := dimOf_bounds hb1 θ.1
  obtain ⟨st, h3, h4⟩ := hrun (startDim sp.info θ.1) (by unfold startDim; omega) (fun i => θ.2.1 i) (fun i => (hθ i).1) (fun i => (hθ i).2) (fun i => θ.2.2 i) θ.1 rfl
  refine ⟨st, fun t => ?_, fun hpos q hq => ?_⟩
  · refine Eq.trans ?_ (h3 t)
    change sp.initialize (startTape sp prs tape junk θ ++ t) = _
    unfold startTape
    rw [List.append_assoc, List.append_assoc]
  · have hperm := newRows_perm site value (e _ fun i => θ.2.1 i) (fun i => θ.2.1 i) (fun i => θ.2.2 i)
      (fun ω => (e (startDim sp.info θ.1) ω)⁻¹) rfl
    have hlen : (newRows site value (e (startDim sp.info θ.1) fun i => θ.2.1 i) (fun i => θ.2.1 i) fun i => θ.2.2 i).length = startDim sp.info θ.1 :=
      List.length_ofFn
    constructor
    · refine ⟨st, hq, _, h4, ?_, ?_, ?_, ?_, ?_⟩
      · rw [hlen]
        exact hdim.1
      · rw [hlen]
        exact hdim.2.trans hb2
      · intro r hr
        obtain ⟨i, rfl⟩ := List.mem_ofFn.1 hr
        exact (hθ _).2
      · exact hap _ _ (hperm.map _) hpos.2
      · rw [newRows_fst]
        exact hok _ fun i => θ.2.1 i
    · change SameRows _ (match dget q sp.info.name with | some (.ps st) => decode col prs st | _ => ofRows [])
      rw [hq]
      simp only
      rw [hcol _ _ h4]
      change (List.ofFn _).Perm (List.ofFn (ofRows _).2)
      rw [rows_ofRows]
      exact hperm

theorem checkVals_arr (n : ℕ) : ∀ {l : List (String × PVal)}, (∀ kv ∈ l, ∃ a : Arr, kv.2 = .arr a ∧ a.len = n) → checkVals n l = .ok ()
  | [], _ => rfl
  | (k, v) :: l, h => by
    obtain ⟨a, h1, h2⟩ := h _ (List.mem_cons_self ..)
    simp only at h1
    subst h1
    rw [checkVals]
    rw [if_neg (by simpa [PVal.len] using h2)]
    rw [checkVal]
    exact checkVals_arr n fun kv hkv => h kv (List.mem_cons_of_mem _ hkv)
    all_goals simp

theorem npSort_ofFn {n : ℕ} (f : Fin n → ℝ) : npSort (List.ofFn f) = List.ofFn (f ∘ Tuple.sort f) := by
  have h1 : (npSort (List.ofFn f)).Perm (List.ofFn (f ∘ Tuple.sort f)) := by
    refine List.Perm.trans ?_ ((Tuple.sort f).ofFn_comp_perm f).symm
    unfold npSort
    exact List.perm_insertionSort _ _
  refine h1.eq_of_pairwise' (npSort_pairwise _) ?_
  rw [List.pairwise_ofFn]
  intro i j hij
  exact Tuple.monotone_sort f hij.le

/-- A start with sites. -/
theorem sites_run {P Ω : Type} [MeasurableSpace P] {col : List P → List (String × PVal)} {loc : P → Pos} {dom : Set P} {dens : Fin k → P → ℝ → ℝ}
    {std : Fin k → P → ℝ} (h : Begins sp prs) (hp : Perturbable sp prs loc dom dens std) {value : Fin k → P → ℝ → ℝ}
    (hv : ∀ j, ∀ x ∈ dom, ∀ ω rest, (prs j).sample (loc x) (devDraw (prs j).dist ω :: rest) = (.ok (value j x ω), rest))
    {site : Ω → P} {tape : Ω → List Draw} {n : ℕ} (hn : 1 ≤ n) (ω : Fin n → Ω) (hx : ∀ i, site (ω i) ∈ dom) (d : Fin n → Fin k → ℝ)
    {m : ℕ} (hm : startDim sp.info m = n) (e : Equiv.Perm (Fin n)) (arr : Arr) (harr : arr.len = n)
    (hpos : arr.positions = (List.ofFn fun i => site (ω (e i))).map loc)
    (hcol : col (List.ofFn fun i => site (ω (e i))) = [("discretization", .arr arr)])
    (hs : ∀ t, sp.info.kind.sampleSites n ((List.ofFn fun i => tape (ω i)).flatten ++ t) = (.ok (some arr), t))
    (hkd : ∀ s vals, ∃ kd, sp.info.kind.withKd (.mk n (("discretization", .arr arr) :: vals) s) =
      .ok (.mk n (("discretization", .arr arr) :: vals) kd)) :
    ∃ st, (∀ t, sp.initialize ((if sp.info.transD then [indexDraw m] else []) ++ ((List.ofFn fun i => tape (ω i)).flatten ++
        ((List.ofFn fun j : Fin k => [] ++ List.ofFn fun i => devDraw (prs j).dist (d i j)).flatten ++ t))) = (.ok st, t)) ∧
      Props.Holds col prs (newRows site value e ω d) st := by
  obtain ⟨kd, hkd⟩ := hkd none (List.ofFn fun j => ((prs j).name, .arr (.vec (List.ofFn fun i => value j (site (ω (e i))) (d i j)))))
  refine ⟨.mk n (("discretization", .arr arr) ::
      List.ofFn fun j => ((prs j).name, .arr (.vec (List.ofFn fun i => value j (site (ω (e i))) (d i j))))) kd, fun t => ?_, ?_, ?_⟩
  · have hdim := startDim_run h m
    have honly := hp.only
    cases sp with
    | mk info ps =>
    rw [Space.initialize]
    refine (M.bind_of (hdim _)).trans ?_
    rw [hm]
    refine (M.bind_of (hs _)).trans ?_
    simp only [List.nil_append]
    rw [hpos]
    have h1 := initAt_all ps prs ((List.ofFn fun i => site (ω (e i))).map loc) [("discretization", .arr arr)]
      (fun j => List.ofFn fun i => devDraw (prs j).dist (d i j)) (fun j => .vec (List.ofFn fun i => value j (site (ω (e i))) (d i j)))
      honly.params honly.inj (fun j hj => honly.disc j (by simpa [dkeys] using hj))
      (fun j t => init_at (hp.hdens j) (hp.custom j) (h.init j) (h.flat j) (hv j) hn _ (fun i => hx _) (fun i => d i j) t) t
    refine (M.bind_of h1).trans ?_
    unfold mkPS
    rw [checkVals_arr n fun kv hkv => ?_]
    · refine (M.bind_of rfl).trans ?_
      exact congrArg (fun r => (r, t)) hkd
    · rcases List.mem_append.1 hkv with hkv | hkv
      · rw [List.mem_singleton] at hkv
        exact ⟨arr, by rw [hkv], harr⟩
      · obtain ⟨j, rfl⟩ := List.mem_ofFn.1 hkv
        exact ⟨_, rfl, by simp [Arr.len]⟩
  · exact (List.length_ofFn).symm
  · rw [newRows_fst, hcol]
    simp only [newRows_snd]
    rfl

/-- A start without sites. -/
theorem plain_run {dens : Fin k → Unit → ℝ → ℝ} {std : Fin k → Unit → ℝ} (h : Begins sp prs)
    (hp : Perturbable sp prs (fun _ : Unit => .none) Set.univ dens std) (hk : sp.info.kind = .plain) {value : Fin k → Unit → ℝ → ℝ}
    (hv : ∀ j, ∀ x ∈ Set.univ, ∀ ω rest, (prs j).sample .none (devDraw (prs j).dist ω :: rest) = (.ok (value j x ω), rest))
    {junk : ℕ → Fin k → List Draw} (hj : ∀ n j, (junk n j).length = n) {n : ℕ} (hn : 1 ≤ n) (ω : Fin n → Unit) (d : Fin n → Fin k → ℝ)
    {m : ℕ} (hm : startDim sp.info m = n) :
    ∃ st, (∀ t, sp.initialize ((if sp.info.transD then [indexDraw m] else []) ++ ((List.ofFn fun i => (fun _ => []) (ω i)).flatten ++
        ((List.ofFn fun j : Fin k => junk n j ++ List.ofFn fun i => devDraw (prs j).dist (d i j)).flatten ++ t))) = (.ok st, t)) ∧
      Props.Holds noSites prs (newRows id value 1 ω d) st := by
  refine ⟨.mk n (List.ofFn fun j => ((prs j).name, .arr (.vec (List.ofFn fun i => value j () (d i j))))) none, fun t => ?_, ?_, ?_⟩
  · have hdim := startDim_run h m
    have honly := hp.only
    have e0 : (List.ofFn fun i => (fun _ : Unit => ([] : List Draw)) (ω i)).flatten = [] := by simp
    cases sp with
    | mk info ps =>
    rw [Space.initialize]
    refine (M.bind_of (hdim _)).trans ?_
    rw [hm, e0, List.nil_append]
    have hk' : info.kind = .plain := hk
    refine (M.bind_of (show info.kind.sampleSites n _ = (.ok none, _) by rw [hk']; rfl)).trans ?_
    simp only
    have h1 := initPlain_all ps prs n (fun j => junk n j ++ List.ofFn fun i => devDraw (prs j).dist (d i j))
      (fun j => .vec (List.ofFn fun i => value j () (d i j))) honly.params
      (fun j t => by
        rw [List.append_assoc]
        exact init_nowhere (hp.hdens j) (hp.custom j) (h.init j) (hv j () trivial) hn (junk n j) (hj n j) (fun i => d i j) t) t
    refine (M.bind_of h1).trans ?_
    unfold mkPS
    rw [checkVals_arr n fun kv hkv => ?_]
    · rfl
    · obtain ⟨j, rfl⟩ := List.mem_ofFn.1 hkv
      exact ⟨_, rfl, by simp [Arr.len]⟩
  · exact (List.length_ofFn).symm
  · simp only [newRows_snd]
    rfl

/-- What the starts of spaces give. -/
theorem started_makes {S : Beginning} (h : Started sp S) : Makes sp S := by
  cases h with
  | plain sp prs dens std draws e junk hk hp hb hj =>
    have hsam := fun j => HasDensity.sampled (hp.hdens j)
    choose hm value hv hrun hlaw using hsam
    refine rows_makes (site := id) hb hp.lo (decode_of (fun _ _ _ => rfl) fun a b hab _ => ?_) hm measurable_id Measure.map_id (.of_forall fun _ => trivial) hv hlaw
      (fun n _ => 1) (fun n σ => MeasurableSet.const _) (fun _ => True) (.of_forall fun _ => trivial) (fun _ _ _ h => h)
      (fun _ _ => trivial) fun n hn ω _ _ d m hm => plain_run hb hp hk hrun hj hn ω d hm
    exact List.ext_getElem hab fun i _ _ => rfl
  | line sp prs v dens std draws e apart ok hp hb hap hok =>
    have hsam := fun j => HasDensity.sampled (hp.hdens j)
    choose hm value hv hrun hlaw using hsam
    have hσ := lineSite_law hp.bounds
    have hprob : IsProbabilityMeasure volume[|Set.Icc v.vmin v.vmax] := by
      rw [← hσ]
      exact Measure.isProbabilityMeasure_map (lineSite_meas v).aemeasurable
    refine rows_makes (site := lineSite v) hb hp.lo (decode_of (fun _ _ _ => rfl) fun a b _ h => ?_) hm (lineSite_meas v) hσ
      (ae_cond_mem measurableSet_Icc) hv hlaw
      (fun n ω => Tuple.sort fun i => lineSite v (ω i)) (fun n σ => sort_meas (lineSite_meas v) σ) (fun _ => True) (.of_forall fun _ => trivial)
      hap (fun n ω => hok _ ?_) fun n hn ω _ hx d m hm => ?_
    · unfold lineSites at h
      simpa using h
    · rw [List.pairwise_ofFn]
      intro i j hij
      exact Tuple.monotone_sort (fun i => lineSite v (ω i)) hij.le
    · refine sites_run (col := lineSites) (tape := fun u => [unitDraw u]) hb hp.toPerturbable hrun hn ω hx d hm _
        (.vec (List.ofFn fun i => lineSite v (ω (Tuple.sort (fun i => lineSite v (ω i)) i)))) (by simp [Arr.len]) rfl rfl (fun t => ?_)
        (fun s vals => ⟨s, by rw [hp.kind]; rfl⟩)
      rw [hp.kind]
      unfold Kind.sampleSites
      have h1 := times_tapes (f := v.sampleSite) (g := lineSite v) (enc := fun u => [unitDraw u]) ω (fun i t => M.uniform_run _ _ _ _) t
      refine (M.bind_of h1).trans ?_
      rw [npSort_ofFn]
      rfl
  | plane sp prs v dens std draws e apart hp hb hap =>
    have hsam := fun j => HasDensity.sampled (hp.hdens j)
    choose hm value hv hrun hlaw using hsam
    have hσ := planeSite_law hp.bounds.1 hp.bounds.2 hp.dom_meas hp.dom_pos
    have hmeas : Measurable (planeSite v) := firstIn_meas (boxSite_meas v) hp.dom_meas
    have hprob : IsProbabilityMeasure volume[|{q | InDomain v q}] := by
      rw [show {q | InDomain v q} = domain2 v from rfl, ← hσ]
      exact Measure.isProbabilityMeasure_map hmeas.aemeasurable
    refine rows_makes (site := planeSite v) hb hp.lo (decode_of (fun _ _ _ => rfl) fun a b _ h => ?_) hm hmeas hσ
      (ae_cond_mem hp.dom_meas) hv hlaw
      (fun n _ => 1) (fun n σ => MeasurableSet.const _) (fun ω => ∃ k, boxSite v (ω k) ∈ domain2 v)
      (some_accepted (unitLaw.prod unitLaw) (boxSite_meas v) hp.dom_meas (planeSite_ne hp.bounds.1 hp.bounds.2 hp.dom_meas hp.dom_pos))
      hap (fun n ω => trivial) fun n hn ω hg hx d m hm => ?_
    · unfold planeSites at h
      simpa using h
    · refine sites_run (col := planeSites) (tape := planeTape v) hb hp.toPerturbable hrun hn ω hx d hm _
        (.pts (List.ofFn fun i => planeSite v (ω i))) (by simp [Arr.len]) rfl rfl (fun t => ?_)
        (fun s vals => by rw [hp.kind]; exact withKd_plane)
      rw [hp.kind]
      unfold Kind.sampleSites
      have h1 := times_tapes (f := v.sampleSite) (g := planeSite v) (enc := planeTape v) ω
        (fun i t => sampleSite_run hp.bounds.1.le hp.bounds.2.le (hg i) t) t
      refine (M.bind_of h1).trans ?_
      rw [if_neg (by omega)]
      rfl

end space

end BB.Lemmas

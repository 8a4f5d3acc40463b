import Verif.Lemmas.StartRun
import Verif.Lemmas.WholeAverages

/-!
# The start of a whole inversion
-/

namespace BB.Lemmas

open BB BB.Spec MeasureTheory ProbabilityTheory

/-! ### the noise -/

/-- A noise parameter at the start. -/
noncomputable def firstNoise : Option Range → ℝ → ℝ
  | some r, u => r.lo + (r.hi - r.lo) * (unitDraw u).u
  | none, _ => 0

theorem firstNoise_meas : ∀ o, Measurable (firstNoise o)
  | some r => by
    have := unitDraw_meas
    unfold firstNoise
    fun_prop
  | none => measurable_const

theorem firstNoise_law : ∀ {o : Option Range}, (∀ r, o = some r → r.Proper) → unitLaw.map (firstNoise o) = flatLaw o
  | some r, h => by
    have hr : r.lo < r.hi := (h r rfl).1
    rw [flatLaw, ← uniform_cond hr, ← map_unitLaw hr]
    rfl
  | none, _ => by
    change unitLaw.map (fun _ => (0 : ℝ)) = Measure.dirac 0
    rw [Measure.map_const, measure_univ, one_smul]

theorem flatLaw_prob {o : Option Range} (h : ∀ r, o = some r → r.Proper) : IsProbabilityMeasure (flatLaw o) := by
  rw [← firstNoise_law h]
  exact Measure.isProbabilityMeasure_map (firstNoise_meas o).aemeasurable

theorem flatLaw_absCont : ∀ o, flatLaw o ≪ flat o
  | some _ => Measure.smul_absolutelyContinuous
  | none => Measure.AbsolutelyContinuous.rfl

/-- The entry of a target at the start. -/
noncomputable def firstEntry (t : Target) (a b : ℝ) : String × TopVal :=
  (t.name, .noise { std := t.stdMin + (t.stdMax - t.stdMin) * (unitDraw a).u,
                    corr := if t.correlated then some (t.corrMin + (t.corrMax - t.corrMin) * (unitDraw b).u) else none })

theorem target_init {t : Target} (hh : t.hierarchical = true) {s : State} (hk : t.name ∉ dkeys s.params) (a b : ℝ) (r : List Draw) :
    t.initialize s ((unitDraw a :: if t.correlated then [unitDraw b] else []) ++ r) =
      (.ok { s with params := s.params ++ [firstEntry t a b] }, r) := by
  rw [Target.initialize, if_pos hh]
  by_cases hc : t.correlated = true
  · simp only [if_pos hc]
    refine (M.bind_of (t1 := unitDraw b :: r) rfl).trans ?_
    refine (M.bind_of (t1 := r) rfl).trans ?_
    change (Except.ok _, r) = _
    rw [dset_new hk]
    simp only [firstEntry, if_pos hc]
  · simp only [if_neg hc]
    refine (M.bind_of (t1 := r) rfl).trans ?_
    change (Except.ok _, r) = _
    rw [dset_new hk]
    simp only [firstEntry, if_neg hc]

theorem targets_init : ∀ (ts : List Target), (∀ t ∈ ts, t.hierarchical = true) → (ts.map (·.name)).Nodup → ∀ (s : State),
    (∀ t ∈ ts, t.name ∉ dkeys s.params) → ∀ (u : Fin ts.length × Bool → ℝ) (r : List Draw),
    initTargets ts s ((List.ofFn fun i : Fin ts.length => unitDraw (u (i, false)) ::
      if ts[i].correlated then [unitDraw (u (i, true))] else []).flatten ++ r) =
      (.ok { s with params := s.params ++ List.ofFn fun i : Fin ts.length => firstEntry ts[i] (u (i, false)) (u (i, true)) }, r)
  | [], _, _, s, _, u, r => by
    simp only [List.length_nil, List.ofFn_zero, List.flatten_nil, List.nil_append, List.append_nil]
    rfl
  | t :: ts, hh, hn, s, hs, u, r => by
    rw [List.map_cons, List.nodup_cons] at hn
    have e1 : (List.ofFn fun i : Fin (t :: ts).length => unitDraw (u (i, false)) ::
        if (t :: ts)[i].correlated then [unitDraw (u (i, true))] else []).flatten =
        (unitDraw (u (0, false)) :: if t.correlated then [unitDraw (u (0, true))] else []) ++
        (List.ofFn fun i : Fin ts.length => unitDraw (u (i.succ, false)) ::
          if ts[i].correlated then [unitDraw (u (i.succ, true))] else []).flatten := by
      change (List.ofFn (n := ts.length + 1) _).flatten = _
      rw [List.ofFn_succ, List.flatten_cons]
      rfl
    have e2 : (List.ofFn fun i : Fin (t :: ts).length => firstEntry (t :: ts)[i] (u (i, false)) (u (i, true))) =
        firstEntry t (u (0, false)) (u (0, true)) ::
          List.ofFn fun i : Fin ts.length => firstEntry ts[i] (u (i.succ, false)) (u (i.succ, true)) := by
      change (List.ofFn (n := ts.length + 1) _) = _
      rw [List.ofFn_succ]
      rfl
    rw [e1, e2, List.append_assoc, initTargets]
    refine (M.bind_of (target_init (hh t (List.mem_cons_self ..)) (hs t (List.mem_cons_self ..)) _ _ _)).trans ?_
    refine (targets_init ts (fun x hx => hh x (List.mem_cons_of_mem _ hx)) hn.2 _ (fun x hx hm => ?_)
      (fun q => u (q.1.succ, q.2)) r).trans ?_
    · have hm' : x.name ∈ dkeys s.params ++ [t.name] := by
        simpa [dkeys, firstEntry] using hm
      rcases List.mem_append.1 hm' with h1 | h1
      · exact hs x (List.mem_cons_of_mem _ hx) h1
      · exact hn.1 (List.mem_map.2 ⟨x, hx, List.mem_singleton.1 h1⟩)
    · simp only [List.append_assoc, List.singleton_append]

theorem initTargets_filter : ∀ (ts : List Target) (s : State), initTargets ts s = initTargets (ts.filter (·.hierarchical)) s
  | [], s => rfl
  | t :: ts, s => by
    by_cases hh : t.hierarchical = true
    · rw [List.filter_cons_of_pos (by exact hh), initTargets, initTargets]
      congr 1
      funext s'
      exact initTargets_filter ts s'
    · rw [List.filter_cons_of_neg (by exact hh), initTargets, Target.initialize, if_neg hh, ← initTargets_filter ts s]
      rfl

/-- The noise at the start. -/
noncomputable def firstNoises (ts : List Target) (u : Fin ts.length × Bool → ℝ) : NoiseValues ts :=
  fun q => firstNoise (noiseRanges ts q) (u q)

theorem firstNoises_mp {ts : List Target} (h : ProperAll ts) :
    MeasurePreserving (firstNoises ts) (noiseBeginning ts).draws (noiseBeginning ts).law := by
  have : ∀ q, IsProbabilityMeasure (flatLaw (noiseRanges ts q)) := fun q => flatLaw_prob fun r hr => h q r hr
  exact measurePreserving_pi (fun _ => unitLaw) (fun q => flatLaw (noiseRanges ts q)) fun q =>
    ⟨firstNoise_meas _, firstNoise_law fun r hr => h q r hr⟩

theorem piFinite_absCont {ι : Type} [Fintype ι] {X : ι → Type} [∀ i, MeasurableSpace (X i)] (μ ν : ∀ i, Measure (X i))
    [∀ i, SigmaFinite (μ i)] [∀ i, SigmaFinite (ν i)] (h : ∀ i, μ i ≪ ν i) : Measure.pi μ ≪ Measure.pi ν := by
  have e := (Fintype.equivFin ι).symm
  rw [← (measurePreserving_piCongrLeft μ e).map_eq, ← (measurePreserving_piCongrLeft ν e).map_eq]
  exact (pi_absCont (fun i => μ (e i)) (fun i => ν (e i)) fun i => h _).map (MeasurableEquiv.measurable _)

theorem noise_absCont {ts : List Target} (h : ProperAll ts) : (noiseBeginning ts).law ≪ (noiseBeginning ts).block.prior := by
  have : ∀ q, IsProbabilityMeasure (flatLaw (noiseRanges ts q)) := fun q => flatLaw_prob fun r hr => h q r hr
  have h2 : ∀ q, SigmaFinite (flat (noiseRanges ts q)) := fun q => by
    cases noiseRanges ts q <;> (unfold flat; infer_instance)
  exact piFinite_absCont (fun q => flatLaw (noiseRanges ts q)) (fun q => flat (noiseRanges ts q)) fun q => flatLaw_absCont _

theorem noise_values (ts : List Target) (u : Fin ts.length × Bool → ℝ) {q : Params}
    (hq : ∀ i : Fin ts.length, dget q ts[i].name = some (firstEntry ts[i] (u (i, false)) (u (i, true))).2) :
    (noiseBlock ts).holds q ∧ (noiseBlock ts).same (firstNoises ts u) ((noiseBlock ts).val q) := by
  constructor
  · intro t ht
    obtain ⟨i, hi, rfl⟩ := List.getElem_of_mem ht
    refine ⟨_, hq ⟨i, hi⟩, ?_⟩
    by_cases hc : ts[i].correlated = true <;> simp [hc]
  · change firstNoises ts u = noiseValues ts q
    funext ⟨i, b⟩
    have hi := hq i
    cases b
    · change _ = noiseValue ts[i] q false
      simp only [noiseValue, hi, firstEntry]
      rfl
    · change firstNoise (noiseRange ts[i] true) (u (i, true)) = noiseValue ts[i] q true
      simp only [noiseValue, hi, firstEntry]
      by_cases hc : ts[i].correlated = true
      · simp only [if_pos hc, Option.getD_some, noiseRange]
        rfl
      · simp only [if_neg hc, noiseRange]
        rfl

/-! ### all blocks -/

variable {p : Problem} {S : ℕ → Beginning}

/-- What the start of a block gives. -/
def Yields (p : Problem) (i : ℕ) (b : Beginning) (θ : b.Θ) (x : b.block.X) : Prop :=
  (∀ nm sp, p.spaces[i]? = some (nm, sp) → ∃ st, (∀ t, sp.initialize (b.enc θ ++ t) = (.ok st, t)) ∧
    ∀ q, dget q sp.info.name = some (.ps st) → b.block.holds q ∧ b.block.same x (b.block.val q)) ∧
  (i = p.spaces.length → ∃ ds : Params, dkeys ds = p.hier.map (·.name) ∧
    (∀ s : State, (∀ t ∈ p.hier, t.name ∉ dkeys s.params) → ∀ r,
      initTargets p.targets s (b.enc θ ++ r) = (.ok { s with params := s.params ++ ds }, r)) ∧
    ∀ q : Params, (∀ kv ∈ ds, dget q kv.1 = some kv.2) → b.block.holds q ∧ b.block.same x (b.block.val q))

theorem noise_yields (hn : (p.hier.map (·.name)).Nodup) (u : Fin p.hier.length × Bool → ℝ) :
    Yields p p.spaces.length (noiseBeginning p.hier) u (firstNoises p.hier u) := by
  constructor
  · intro nm sp h
    rw [List.getElem?_eq_none le_rfl] at h
    cases h
  · intro _
    refine ⟨List.ofFn fun i : Fin p.hier.length => firstEntry p.hier[i] (u (i, false)) (u (i, true)), ?_, ?_, ?_⟩
    · rw [dkeys, List.map_ofFn]
      refine List.ext_getElem (by simp) fun i h1 h2 => ?_
      simp [firstEntry]
    · intro s hs r
      rw [initTargets_filter]
      exact targets_init p.hier (fun t ht => (List.mem_filter.1 ht).2) hn s hs u r
    · intro q hq
      exact noise_values p.hier u fun i => hq _ (List.mem_ofFn.2 ⟨i, rfl⟩)

theorem block_yields {logLik : Whole p (fun i => (S i).block) → ℝ} (h : AnyProblem p (fun i => (S i).block) logLik)
    (hS : AllStart p S) (i : Fin p.cfg.perturbs.length) :
    IsProbabilityMeasure (S i).draws ∧ IsProbabilityMeasure (S i).law ∧ (S i).law ≪ (S i).block.prior ∧
    ∃ x, MeasurePreserving x (S i).draws (S i).law ∧ ∀ᵐ θ ∂(S i).draws, x θ ∈ (S i).block.possible → Yields p i (S i) θ (x θ) := by
  rcases whole_cases h i with ⟨sp, hsp, -, -⟩ | ⟨hi, hne, -, -⟩
  · obtain ⟨h1, h2, h3, x, h4, h5⟩ := started_makes (hS.spaces _ _ _ hsp)
    refine ⟨h1, h2, h3, x, h4, h5.mono fun θ hθ hp => ⟨fun nm sp' hsp' => ?_, fun hc => ?_⟩⟩
    · obtain ⟨rfl, rfl⟩ := Prod.mk.inj (Option.some.inj (hsp.symm.trans hsp'))
      obtain ⟨st, h6, h7⟩ := hθ
      exact ⟨st, h6, h7 hp⟩
    · rw [hc, List.getElem?_eq_none le_rfl] at hsp
      cases hsp
  · have hb := hS.noise hne
    rw [← hi] at hb
    have hnd := hier_nodup h.targets
    have key : ∀ b : Beginning, b = noiseBeginning p.hier → IsProbabilityMeasure b.draws ∧ IsProbabilityMeasure b.law ∧
        b.law ≪ b.block.prior ∧ ∃ x, MeasurePreserving x b.draws b.law ∧
        ∀ᵐ θ ∂b.draws, x θ ∈ b.block.possible → Yields p i b θ (x θ) := by
      rintro b rfl
      have hp : IsProbabilityMeasure (noiseBeginning p.hier).draws := by
        change IsProbabilityMeasure (Measure.pi fun _ => unitLaw)
        infer_instance
      have hq : ∀ q, IsProbabilityMeasure (flatLaw (noiseRanges p.hier q)) := fun q => flatLaw_prob fun r hr => h.bounds q r hr
      have hl : IsProbabilityMeasure (noiseBeginning p.hier).law := by
        change IsProbabilityMeasure (Measure.pi fun q => flatLaw (noiseRanges p.hier q))
        infer_instance
      refine ⟨hp, hl, noise_absCont h.bounds, firstNoises p.hier, firstNoises_mp h.bounds, Filter.Eventually.of_forall fun u _ => ?_⟩
      rw [hi]
      exact noise_yields hnd u
    exact key _ hb

theorem initValues_ran : ∀ (sps : Spaces) (enc : ℕ → List Draw) (st : ℕ → PSState),
    (∀ (i : ℕ) (nm : String) (sp : Space), sps[i]? = some (nm, sp) → ∀ t, sp.initialize (enc i ++ t) = (.ok (st i), t)) → ∀ t,
    sps.initValues (((List.range sps.length).map enc).flatten ++ t) =
      (.ok ((sps.zipIdx).map fun x => (x.1.1, .ps (st x.2))), t)
  | [], _, _, _, t => rfl
  | (k, sp) :: rest, enc, st, h, t => by
    have e : ((List.range ((k, sp) :: rest).length).map enc).flatten = enc 0 ++
        ((List.range rest.length).map fun i => enc (i + 1)).flatten := by
      rw [List.length_cons, List.range_succ_eq_map, List.map_cons, List.map_map, List.flatten_cons]
      rfl
    rw [e, List.append_assoc, Spaces.initValues]
    refine (M.bind_of (h 0 k sp rfl _)).trans ?_
    refine (M.bind_of (initValues_ran rest (fun i => enc (i + 1)) (fun i => st (i + 1)) (fun i nm sp' hi => h (i + 1) nm sp' hi) t)).trans ?_
    change (Except.ok _, t) = _
    rw [List.zipIdx_cons, List.map_cons, Nat.zero_add, List.zipIdx_succ, List.map_map]
    rfl

theorem perturbs_count {B : ℕ → Block} {logLik : Whole p B → ℝ} (h : AnyProblem p B logLik) :
    p.cfg.perturbs.length = p.spaces.length + if p.hier = [] then 0 else 1 := by
  rw [whole_perturbs h, List.length_append, List.length_map]
  congr 1
  unfold Problem.noisePerturbs
  by_cases hh : p.hier = []
  · simp [hh]
  · have : p.hier.isEmpty = false := by simpa using hh
    simp [hh, this]

theorem ofFn_range {α : Type} {n : ℕ} (f : Fin n → α) (g : ℕ → α) (h : ∀ i : Fin n, f i = g i) :
    List.ofFn f = (List.range n).map g :=
  List.ext_getElem (by simp) fun i h1 h2 => by simp [h ⟨i, by simpa using h1⟩]

/-- A start. -/
theorem whole_start_run {logLik : Whole p (fun i => (S i).block) → ℝ} (h : AnyProblem p (fun i => (S i).block) logLik)
    {θ : ∀ i : Fin p.cfg.perturbs.length, (S i).Θ} {x : Whole p fun i => (S i).block}
    (hy : ∀ i : Fin p.cfg.perturbs.length, Yields p i (S i) (θ i) (x i)) :
    ∃ s, p.start (startDraws p S θ) = (.ok s, []) ∧ HoldsAll p (fun i => (S i).block) s.params ∧
      SameWhole x (wholeOf p (fun i => (S i).block) s.params) ∧ s.cache = [] ∧ s.extra = [] := by
  classical
  have hN := perturbs_count h
  set enc : ℕ → List Draw := fun i => if hi : i < p.cfg.perturbs.length then (S i).enc (θ ⟨i, hi⟩) else [] with henc
  have hte : startDraws p S θ = ((List.range p.cfg.perturbs.length).map enc).flatten := by
    unfold startDraws
    congr 1
    exact ofFn_range _ _ fun i => by
      rw [henc]
      simp only [dif_pos i.isLt]
  have hex : ∀ i : ℕ, ∃ st : PSState, ∀ (nm : String) (sp : Space), p.spaces[i]? = some (nm, sp) → ∃ hi : i < p.cfg.perturbs.length,
      (∀ t, sp.initialize (enc i ++ t) = (.ok st, t)) ∧ ∀ q, dget q sp.info.name = some (.ps st) →
        (S i).block.holds q ∧ (S i).block.same (x ⟨i, hi⟩) ((S i).block.val q) := by
    intro i
    by_cases hi : i < p.spaces.length
    · have hiN : i < p.cfg.perturbs.length := by omega
      obtain ⟨st, h1, h2⟩ := (hy ⟨i, hiN⟩).1 p.spaces[i].1 p.spaces[i].2 (List.getElem?_eq_getElem hi)
      refine ⟨st, fun nm sp hsp => ?_⟩
      obtain ⟨rfl, rfl⟩ := Prod.mk.inj (Option.some.inj ((List.getElem?_eq_getElem hi).symm.trans hsp))
      refine ⟨hiN, ?_, h2⟩
      rw [henc]
      simp only [dif_pos hiN]
      exact h1
    · refine ⟨.mk 0 [] none, fun nm sp hsp => ?_⟩
      rw [List.getElem?_eq_none (by omega)] at hsp
      cases hsp
  choose st hst using hex
  have hinit := initValues_ran p.spaces enc st fun i nm sp hsp => (hst i nm sp hsp).2.1
  set q0 : Params := (p.spaces.zipIdx).map fun x => (x.1.1, .ps (st x.2)) with hq0
  have hk0 : dkeys q0 = p.spaces.map (·.1) := by
    rw [hq0, dkeys, List.map_map]
    refine List.ext_getElem (by simp) fun i h1 h2 => ?_
    simp
  have hmem : ∀ (i : ℕ) (nm : String) (sp : Space), p.spaces[i]? = some (nm, sp) → (nm, TopVal.ps (st i)) ∈ q0 := by
    intro i nm sp hsp
    rw [hq0]
    refine List.mem_map.2 ⟨((nm, sp), i), ?_, rfl⟩
    exact List.mem_zipIdx_iff_getElem?.2 hsp
  -- the spaces and the rest
  have hfin : ∀ q : Params, (dkeys q).Nodup → (∀ kv ∈ q0, kv ∈ q) → ∀ i : Fin p.cfg.perturbs.length, i.val < p.spaces.length →
      (S i).block.holds q ∧ (S i).block.same (x i) ((S i).block.val q) := by
    intro q hq hsub i hi
    have hsp : p.spaces[i.val]? = some (p.spaces[i.val].1, p.spaces[i.val].2) := List.getElem?_eq_getElem hi
    have hnm := (h.spaces _ _ _ hsp).1
    obtain ⟨_, _, h2⟩ := hst _ _ _ hsp
    exact h2 q (hnm ▸ dget_of_mem hq (hsub _ (hmem _ _ _ hsp)))
  by_cases hh : p.hier = []
  · rw [if_pos hh, Nat.add_zero] at hN
    refine ⟨{ params := q0, temperature := 1, cache := [], extra := [] }, ?_, ⟨?_, fun i => ?_⟩, fun i => ?_, rfl, rfl⟩
    · rw [hte, hN]
      refine (M.bind_of (m := p.spaces.initialize) (t1 := []) (a := { params := q0, temperature := 1, cache := [], extra := [] }) ?_).trans ?_
      · have h1 := hinit []
        rw [List.append_nil] at h1
        exact M.bind_of h1
      · rw [initTargets_none _ hh]
        rfl
    · rw [hh, List.map_nil, List.append_nil]
      exact hk0
    · have hd := h.distinct
      rw [hh, List.map_nil, List.append_nil, ← hk0] at hd
      exact (hfin q0 hd (fun _ hk => hk) i (hN ▸ i.isLt)).1
    · have hd := h.distinct
      rw [hh, List.map_nil, List.append_nil, ← hk0] at hd
      exact (hfin q0 hd (fun _ hk => hk) i (hN ▸ i.isLt)).2
  · rw [if_neg hh] at hN
    have hl : p.spaces.length < p.cfg.perturbs.length := by omega
    obtain ⟨ds, hk1, hrun, hval⟩ := (hy ⟨p.spaces.length, hl⟩).2 rfl
    have hd := h.distinct
    rw [← hk0, ← hk1, dkeys, dkeys, ← List.map_append] at hd
    have hd' : (dkeys (q0 ++ ds)).Nodup := hd
    have hall : ∀ i : Fin p.cfg.perturbs.length, (S i).block.holds (q0 ++ ds) ∧ (S i).block.same (x i) ((S i).block.val (q0 ++ ds)) := by
      intro i
      by_cases hi : i.val < p.spaces.length
      · exact hfin _ hd' (fun _ hk => List.mem_append_left _ hk) i hi
      · have hi' : i = ⟨p.spaces.length, hl⟩ := Fin.ext (by have := i.isLt; show i.val = p.spaces.length; omega)
        rw [hi']
        exact hval _ fun kv hkv => dget_of_mem hd' (List.mem_append_right _ hkv)
    refine ⟨{ params := q0 ++ ds, temperature := 1, cache := [], extra := [] }, ?_, ⟨?_, fun i => (hall i).1⟩,
      fun i => (hall i).2, rfl, rfl⟩
    · rw [hte, hN, List.range_succ, List.map_append, List.flatten_append]
      refine (M.bind_of (m := p.spaces.initialize) (a := { params := q0, temperature := 1, cache := [], extra := [] })
        (M.bind_of (hinit _))).trans ?_
      have e1 : (([p.spaces.length].map enc).flatten : List Draw) = (S p.spaces.length).enc (θ ⟨p.spaces.length, hl⟩) ++ [] := by
        rw [List.map_singleton, List.flatten_singleton, List.append_nil, henc]
        simp only [dif_pos hl]
      rw [e1]
      refine hrun _ (fun t ht hm => ?_) _
      have hm' : t.name ∈ p.spaces.map (·.1) := hk0 ▸ hm
      exact (List.nodup_append.1 h.distinct).2.2 _ hm' _ (List.mem_map.2 ⟨t, ht, rfl⟩) rfl
    · change dkeys (q0 ++ ds) = _
      rw [← hk1, ← hk0, dkeys, dkeys, dkeys, List.map_append]

/-- The law of the first models, and the chains. -/
theorem whole_start {logLik : Whole p (fun i => (S i).block) → ℝ} (h : AnyProblem p (fun i => (S i).block) logLik)
    (hS : AllStart p S) : ∃ x : (∀ i : Fin p.cfg.perturbs.length, (S i).Θ) → Whole p fun i => (S i).block,
    MeasurePreserving x (Measure.pi fun i : Fin p.cfg.perturbs.length => (S i).draws) (firstLaw p S) ∧
    IsProbabilityMeasure (Measure.pi fun i : Fin p.cfg.perturbs.length => (S i).draws) ∧
    IsProbabilityMeasure (firstLaw p S) ∧ firstLaw p S ≪ wholePrior p (fun i => (S i).block) ∧
    ∀ᵐ θ ∂Measure.pi fun i : Fin p.cfg.perturbs.length => (S i).draws, PossibleWhole (x θ) ∧
      ∀ {E : Type} (w : E), ∃ c : Chain State Store E, p.newChain w (startDraws p S θ) = (.ok c, []) ∧
        Ready p (fun i => (S i).block) 1 c ∧ c.saved = [] ∧ c.total = 0 ∧
        SameWhole (x θ) (wholeOf p (fun i => (S i).block) c.cur.params) := by
  choose h1 h2 h3 x h4 h5 using block_yields h hS
  have hfi : ∀ i : Fin p.cfg.perturbs.length, IsFiniteMeasure (S i).block.prior := fun i => (whole_regular h i).finite
  have hmp : MeasurePreserving (fun (θ : ∀ i : Fin p.cfg.perturbs.length, (S i).Θ) i => x i (θ i))
      (Measure.pi fun i : Fin p.cfg.perturbs.length => (S i).draws) (firstLaw p S) :=
    measurePreserving_pi (fun i : Fin p.cfg.perturbs.length => (S i).draws) (fun i => (S i).law) h4
  have hac : firstLaw p S ≪ wholePrior p (fun i => (S i).block) :=
    pi_absCont (fun i : Fin p.cfg.perturbs.length => (S i).law) (fun i => (S i).block.prior) h3
  have hpr : IsProbabilityMeasure (firstLaw p S) := by
    unfold firstLaw
    infer_instance
  refine ⟨_, hmp, inferInstance, hpr, hac, ?_⟩
  have hpos := hmp.quasiMeasurePreserving.ae (hac.ae_le (whole_possible_prior h))
  have hyi : ∀ᵐ θ ∂Measure.pi fun i : Fin p.cfg.perturbs.length => (S i).draws,
      ∀ i : Fin p.cfg.perturbs.length, x i (θ i) ∈ (S i).block.possible → Yields p i (S i) (θ i) (x i (θ i)) :=
    ae_all_iff.2 fun i => (Measure.quasiMeasurePreserving_eval (fun i : Fin p.cfg.perturbs.length => (S i).draws) i).ae
      (p := fun θ => x i θ ∈ (S i).block.possible → Yields p i (S i) θ (x i θ)) (h5 i)
  filter_upwards [hpos, hyi] with θ hp hy
  refine ⟨hp, fun {E} w => ?_⟩
  obtain ⟨s, g1, g2, g3, g4, g5⟩ := whole_start_run h (x := fun i => x i (θ i)) fun i => hy i (hp i)
  refine ⟨Chain.init s [] 1 w, M.bind_of g1, ⟨g2, ?_, g5, rfl, ?_, ?_⟩, rfl, rfl, g3⟩
  · intro a _ v hv
    change dget s.cache _ = _ at hv
    rw [g4] at hv
    cases hv
  · intro name n _ hc
    cases hc
  · intro name n _ hc
    cases hc

variable {E : Type}

/-- The mean of a function of the new chain that depends only on its model. -/
theorem newChain_mean {logLik : Whole p (fun i => (S i).block) → ℝ} (h : AnyProblem p (fun i => (S i).block) logLik)
    (hS : AllStart p S) (w : E) (F : Chain State Store E → ENNReal) (g : Whole p (fun i => (S i).block) → ENNReal) (hg : Measurable g)
    (hF : ∀ᵐ x ∂wholePrior p (fun i => (S i).block), ∀ c : Chain State Store E, Ready p (fun i => (S i).block) 1 c → c.saved = [] →
      c.total = 0 → SameWhole x (wholeOf p (fun i => (S i).block) c.cur.params) → F c = g x) :
    newChainLaw p S w F = ∫⁻ x, g x ∂firstLaw p S := by
  obtain ⟨x, h1, -, -, h4, h5⟩ := whole_start h hS
  rw [← h1.lintegral_comp hg]
  refine lintegral_congr_ae ?_
  filter_upwards [h5, h1.quasiMeasurePreserving.ae (h4.ae_le hF)] with θ hθ hx
  obtain ⟨c, g1, g2, g3, g4, g5⟩ := hθ.2 w
  rw [g1]
  exact hx c g2 g3 g4 g5

theorem newChain_bound {logLik : Whole p (fun i => (S i).block) → ℝ} (h : AnyProblem p (fun i => (S i).block) logLik)
    (hS : AllStart p S) (w : E) (F : Chain State Store E → ENNReal) (g : Whole p (fun i => (S i).block) → ENNReal) (hg : Measurable g)
    (hF : ∀ᵐ x ∂wholePrior p (fun i => (S i).block), ∀ c : Chain State Store E, Ready p (fun i => (S i).block) 1 c → c.saved = [] →
      c.total = 0 → SameWhole x (wholeOf p (fun i => (S i).block) c.cur.params) → g x ≤ F c) :
    ∫⁻ x, g x ∂firstLaw p S ≤ newChainLaw p S w F := by
  obtain ⟨x, h1, -, -, h4, h5⟩ := whole_start h hS
  rw [← h1.lintegral_comp hg]
  refine lintegral_mono_ae ?_
  filter_upwards [h5, h1.quasiMeasurePreserving.ae (h4.ae_le hF)] with θ hθ hx
  obtain ⟨c, g1, g2, g3, g4, g5⟩ := hθ.2 w
  rw [g1]
  exact hx c g2 g3 g4 g5

/-- Any number of iterations of any inversion are completed. -/
theorem any_complete {B : ℕ → Block} {logLik : Whole p B → ℝ} (h : AnyProblem p B logLik) (hpn : PlainNames p) {T : ℝ} (hT : T ≠ 0)
    {b s : ℤ} (hs : s ≠ 0) (n : ℕ) :
    ∀ᵐ x ∂wholePrior p B, ∀ c : Chain State Store E, Ready p B T c → SameWhole x (wholeOf p B c.cur.params) →
      IterationsLaw p.cfg b s (wholeDraws p B) (wholeLaw p B) (fun st => wholeOf p B st.params) n c Set.univ = 1 := by
  choose R hR using whole_settled h
  have hreg := whole_regular h
  have hfi : ∀ i : Fin p.cfg.perturbs.length, IsFiniteMeasure (B i).prior := fun i => (hreg i).finite
  have hok : ∀ i, (R i).L.Ok := fun i => (R i).ok
  obtain ⟨hK, hprob, halike, hGm, hGr, hdr⟩ := whole_kernel h hT R
  have hsp : Spares (wholePrior p B) (mixTrans (fun i => (R i).L.moves) (fun i => (R i).L.w) logLik T (chance p.cfg)) :=
    settled_spares (fun i : Fin p.cfg.perturbs.length => (B i).prior) (fun i => (hok i).ok) (fun i => (hok i).w_nonneg)
      (fun i => (hok i).w_sum) (fun i => (hreg i).meas) (fun i => (hreg i).pos) (fun i => (hreg i).tilt) hR h.meas T _
  filter_upwards [whole_power (E := E) (b := b) (s := s) h hpn hT hs R hsp n] with x hx c h1 h2
  rw [hx c h1 h2 _ .univ (fun _ _ _ => Iff.rfl)]
  have hp : ∀ m y, power (mixTrans (fun i => (R i).L.moves) (fun i => (R i).L.w) logLik T (chance p.cfg)) m y Set.univ = 1 := by
    intro m
    induction m with
    | zero => intro y; simp [power]
    | succ m ih =>
      intro y
      have := hprob y
      rw [power, lintegral_congr ih, lintegral_one, measure_univ]
  exact hp n x

/-! ### the prior -/

theorem pi_normalised {ι : Type} [Fintype ι] {X : ι → Type} [∀ i, MeasurableSpace (X i)] (μ ν : ∀ i, Measure (X i)) [∀ i, IsFiniteMeasure (ν i)]
    [∀ i, IsProbabilityMeasure (μ i)] (h : ∀ i, μ i = (ν i Set.univ)⁻¹ • ν i) :
    Measure.pi μ = (Measure.pi ν Set.univ)⁻¹ • Measure.pi ν := by
  refine Measure.pi_eq fun s hs => ?_
  rw [Measure.smul_apply, Measure.pi_pi, Measure.pi_univ, smul_eq_mul]
  have e : ∀ i, μ i (s i) = (ν i Set.univ)⁻¹ * ν i (s i) := fun i => by
    rw [h i, Measure.smul_apply, smul_eq_mul]
  simp only [e, Finset.prod_mul_distrib]
  rw [ENNReal.prod_inv_distrib]
  intro i _ j _ _
  exact .inr (measure_ne_top _ _)

end BB.Lemmas

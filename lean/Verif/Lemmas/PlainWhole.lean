import Verif.Spec.PlainRun
import Verif.Lemmas.PlainStart
import Verif.Lemmas.PlainAverages
import Verif.Props.C54_Results

/-!
# Plain parameter spaces: whole inversions
-/

namespace BB.Lemmas

open BB Spec MeasureTheory Filter Topology

variable {m : ℕ} {sps : Fin m → PlainSpace} {p : Problem} {logLik : Values sps → ℝ} {E : Type} {K : ℕ}

/-! ### the starts of the chains -/

/-- The starts of `k` chains. -/
noncomputable def startsV (sps : Fin m → PlainSpace) : (k : ℕ) → V (Fin k → Values sps)
  | 0 => V.ret fun i => i.elim0
  | k + 1 => V.andThen (startV sps) fun x => V.andThen (startsV sps k) fun xs => V.ret (Fin.cons x xs)

theorem startsV_meas (h : ∀ i, (sps i).Ok) : ∀ k, Measurable (startsV sps k)
  | 0 => measurable_const.prodMk measurable_id
  | k + 1 => by
    have h1 := startV_meas h
    have h2 := (startsV_meas h k).comp (measurable_snd.comp h1)
    have h3 : Measurable fun t => ((Fin.cons (startV sps t).1 (startsV sps k (startV sps t).2).1 : Fin (k + 1) → Values sps),
        (startsV sps k (startV sps t).2).2) :=
      ((consAll_meas (X := fun _ : Fin (k + 1) => Values sps)).comp ((measurable_fst.comp h1).prodMk (measurable_fst.comp h2))).prodMk (measurable_snd.comp h2)
    exact h3

theorem startsV_law (hK : K ≠ 0) (h : ∀ i, (sps i).Ok) (hs : ∀ i, (sps i).Startable) (hd : Multiple sps K) : ∀ k,
    V.HasLaw K (startsV sps k) (k * startLen sps) fun G => ∫⁻ xs, G xs ∂Measure.pi fun _ : Fin k => startOf sps
  | 0 => by
    refine V.HasLaw.congr hK ((V.HasLaw.ret _).mono (Nat.zero_le _)) fun G hG => ?_
    rw [Measure.pi_of_empty _ fun i => i.elim0, lintegral_dirac' _ hG]
  | k + 1 => by
    have hp := startOf_prob h hs
    have h2 : ∀ x : Values sps, V.HasLaw K (V.andThen (startsV sps k) fun xs => V.ret (Fin.cons x xs : Fin (k + 1) → Values sps))
        (k * startLen sps + 0) fun G => ∫⁻ xs, G (Fin.cons x xs) ∂Measure.pi fun _ : Fin k => startOf sps := fun x =>
      V.HasLaw.andThen (startsV_law hK h hs hd k) (fun xs => V.HasLaw.ret _)
        (V.Meas.ret (consAll_meas.comp (measurable_const.prodMk measurable_id)))
    have hm : V.Meas fun x : Values sps => V.andThen (startsV sps k) fun xs => V.ret (Fin.cons x xs : Fin (k + 1) → Values sps) :=
      V.Meas.andThen (V.Meas.const (startsV_meas h k)) (V.Meas.ret consAll_meas)
    have h3 := V.HasLaw.andThen (startV_law hK h hs hd) h2 hm
    refine V.HasLaw.congr hK (h3.mono (by rw [Nat.succ_mul]; omega)) fun G hG => ?_
    exact lintegral_cons (fun _ : Fin (k + 1) => startOf sps) hG

theorem startsV_short (sps : Fin m → PlainSpace) : ∀ k, V.Short (startsV sps k) (k * startLen sps)
  | 0 => (V.Short.ret _).mono (Nat.zero_le _)
  | k + 1 => ((startV_short sps).andThen fun _ => (startsV_short sps k).andThen fun _ => V.Short.ret _).mono (by
      rw [Nat.succ_mul]; omega)

/-- The chain at its start. -/
def chainAt (sps : Fin m → PlainSpace) (x : Values sps) (w : E) : Chain State Store E :=
  Chain.init { params := paramsOf sps x, temperature := 1, cache := [], extra := [] } [] 1 w

theorem chainAt_at (x : Values sps) (w : E) : At p sps 1 x (chainAt sps x w) :=
  ⟨rfl, rfl, fun _ _ _ hv => (by cases hv), rfl, fun _ _ _ h => (by cases h), fun _ _ _ h => (by cases h)⟩

theorem forEach_chains (h : PlainProblem p sps logLik) (hs : ∀ i, (sps i).Startable) (w : E) : ∀ (l : List ℕ) (t : List Draw),
    l.length * startLen sps ≤ t.length →
    M.forEach (fun _ => p.newChain w) l t =
      (.ok (List.ofFn fun j => chainAt sps ((startsV sps l.length t).1 j) w), (startsV sps l.length t).2) ∧
      ∀ j, Possible sps ((startsV sps l.length t).1 j)
  | [], t, _ => ⟨rfl, fun j => j.elim0⟩
  | a :: l, t, ht => by
    rw [List.length_cons, Nat.succ_mul] at ht
    obtain ⟨k, hk, hdrop⟩ := startV_short sps t
    obtain ⟨h1, h2⟩ := forEach_chains h hs w l (startV sps t).2 (by
      rw [hdrop, List.length_drop]
      omega)
    constructor
    · rw [M.forEach]
      refine (M.bind_of ((M.bind_of (start_run h hs t (by omega))).trans rfl)).trans ?_
      refine (M.bind_of h1).trans ?_
      rw [List.length_cons, List.ofFn_succ]
      rfl
    · intro j
      refine Fin.cases ?_ (fun j => ?_) j
      · exact startV_possible h.ok hs t (by omega)
      · exact h2 j

theorem newChains_run (h : PlainProblem p sps logLik) (hs : ∀ i, (sps i).Startable) (w : E) (k : ℕ) (t : List Draw)
    (ht : k * startLen sps ≤ t.length) :
    p.newChains k w t = (.ok (List.ofFn fun j => chainAt sps ((startsV sps k t).1 j) w), (startsV sps k t).2) ∧
      ∀ j, Possible sps ((startsV sps k t).1 j) := by
  have h1 := forEach_chains h hs w (List.range k) t (by rw [List.length_range]; exact ht)
  rw [List.length_range] at h1
  exact h1

/-! ### the runs of the chains -/

/-- What a chain holds after the run. -/
def Holds (sps : Fin m → PlainSpace) (c : Chain State Store E) (ys : List (Values sps)) : Prop :=
  HasModels sps [] c.saved ys ∧ (dkeys c.saved).Nodup

/-- The models of the chains that are advanced one after the other. -/
noncomputable def trails (sps : Fin m → PlainSpace) (K : ℕ) (ℓ : Values sps → ℝ) (hm : 0 < m) (b s : ℤ) (n : ℕ) :
    (k : ℕ) → (Fin k → Values sps) → List Draw → List (List (Values sps))
  | 0, _, _ => []
  | k + 1, xs, t => trail sps K ℓ hm b s 1 n (xs 0) t :: trails sps K ℓ hm b s n k (fun j => xs j.succ) (restOf sps K ℓ hm n (xs 0) t)

theorem advSeq_run (hm : 0 < m) (h : PlainProblem p sps logLik) (hk : OwnKeys p sps) {b s : ℤ} (hs : s ≠ 0) {L : ℕ}
    (hL : ∀ i, (sps i).size + 5 ≤ L) (n : ℕ) (w₀ : E) : ∀ (k : ℕ) (xs : Fin k → Values sps) (w : E) (t : List Draw),
    (∀ j, Possible sps (xs j)) → (∀ d ∈ t, d.u ≠ 0) → k * (n * L) ≤ t.length →
    ∃ evs cs' w' t', advSeq (Chain.advance p.cfg b s Act.skip Act.skip n) (List.ofFn fun j => chainAt sps (xs j) w₀) w t =
        (.ok evs, cs', w', t') ∧
      List.Forall₂ (Holds sps) cs' (trails sps K (fun x => logLik x / 1) hm b s n k xs t)
  | 0, xs, w, t, _, _, _ => ⟨[], [], w, t, rfl, List.Forall₂.nil⟩
  | k + 1, xs, w, t, hx, hu, ht => by
    rw [Nat.succ_mul] at ht
    obtain ⟨evs, c', h1, h2, h3⟩ := advance_saves (K := K) hm h hk (b := b) hs hL n (hx 0) (chainAt_at (p := p) (xs 0) w) hu (by omega)
    obtain ⟨q, hq, hdrop⟩ := restOf_drop (K := K) (ℓ := fun x => logLik x / 1) (hm := hm) hL n (xs 0) t
    obtain ⟨evs', cs', w', t', h4, h5⟩ := advSeq_run hm h hk hs hL n w₀ k (fun j => xs j.succ) c'.world
      (restOf sps K (fun x => logLik x / 1) hm n (xs 0) t) (fun j => hx j.succ)
      (fun d hd => hu d (by rw [hdrop] at hd; exact List.mem_of_mem_drop hd)) (by
        rw [hdrop, List.length_drop]
        omega)
    refine ⟨evs :: evs', c' :: cs', w', t', ?_, List.Forall₂.cons ⟨h2, h3 List.nodup_nil⟩ h5⟩
    rw [List.ofFn_succ, advSeq]
    have e : ({ chainAt sps (xs 0) w₀ with world := w } : Chain State Store E) = chainAt sps (xs 0) w := rfl
    rw [e, h1]
    simp only
    rw [h4]

theorem advPar_run (hm : 0 < m) (h : PlainProblem p sps logLik) (hk : OwnKeys p sps) {b s : ℤ} (hs : s ≠ 0) {L : ℕ}
    (hL : ∀ i, (sps i).size + 5 ≤ L) (n : ℕ) (w₀ w : E) (work : ℕ → List Draw) : ∀ (k i : ℕ) (xs : Fin k → Values sps),
    (∀ j, Possible sps (xs j)) → (∀ j : Fin k, (∀ d ∈ work (i + j), d.u ≠ 0) ∧ n * L ≤ (work (i + j)).length) →
    ∃ evs cs', advPar (Chain.advance p.cfg b s Act.skip Act.skip n) work w i (List.ofFn fun j => chainAt sps (xs j) w₀) =
        .ok (evs, cs') ∧
      List.Forall₂ (Holds sps) cs' (List.ofFn fun j : Fin k => trail sps K (fun x => logLik x / 1) hm b s 1 n (xs j) (work (i + j)))
  | 0, i, xs, _, _ => ⟨[], [], rfl, List.Forall₂.nil⟩
  | k + 1, i, xs, hx, hw => by
    obtain ⟨evs, c', h1, h2, h3⟩ := advance_saves (K := K) hm h hk (b := b) hs hL n (hx 0) (chainAt_at (p := p) (xs 0) w)
      (t := work i) (hw 0).1 (hw 0).2
    have e1 : ∀ j : Fin k, i + 1 + (j : ℕ) = i + (j.succ : ℕ) := fun j => by rw [Fin.val_succ]; omega
    obtain ⟨evs', cs', h4, h5⟩ := advPar_run hm h hk hs hL n w₀ w work k (i + 1) (fun j => xs j.succ) (fun j => hx j.succ)
      (fun j => by rw [e1 j]; exact hw j.succ)
    refine ⟨evs :: evs', c' :: cs', ?_, ?_⟩
    · rw [List.ofFn_succ, advPar]
      have e : ({ chainAt sps (xs 0) w₀ with world := w } : Chain State Store E) = chainAt sps (xs 0) w := rfl
      rw [e, h1]
      simp only
      rw [h4]
    · rw [List.ofFn_succ]
      refine List.Forall₂.cons ⟨h2, h3 List.nodup_nil⟩ ?_
      simp only [e1] at h5
      exact h5

theorem act_bind_of {C α β : Type} {a : Act C α} {f : α → Act C β} {c c' : C} {t t' : List Draw} {x : α} (h : a c t = (.ok x, c', t')) :
    (a >>= f) c t = f x c' t' := by
  rw [Act.bind_run, h]

/-- The run with the default sampler. -/
theorem sample_run (hm : 0 < m) (h : PlainProblem p sps logLik) (hk : OwnKeys p sps) (hst : ∀ i, (sps i).Startable) {b s : ℤ} (hs : s ≠ 0)
    {L : ℕ} (hL : ∀ i, (sps i).size + 5 ≤ L) (n : ℕ) (w₀ : E) (k : ℕ) (nJobs : Option ℤ) (work : ℕ → ℕ → List Draw) (t : List Draw)
    (hu : ∀ d ∈ t, d.u ≠ 0) (ht : k * startLen sps + k * (n * L) ≤ t.length)
    (hw : ∀ j : Fin k, (∀ d ∈ work 0 j, d.u ≠ 0) ∧ n * L ≤ (work 0 j).length) :
    ∃ cs' t', p.sample k nJobs work n b s w₀ t = (.ok cs', t') ∧
      List.Forall₂ (Holds sps) cs' (if 1 < nJobs.getD (k : ℤ) then
        List.ofFn fun j : Fin k => trail sps K (fun x => logLik x / 1) hm b s 1 n ((startsV sps k t).1 j) (work 0 j)
        else trails sps K (fun x => logLik x / 1) hm b s n k (startsV sps k t).1 (startsV sps k t).2) := by
  obtain ⟨h1, h2⟩ := newChains_run h hst w₀ k t (by omega)
  obtain ⟨q, hq, hdrop⟩ := startsV_short sps k t
  unfold Problem.sample
  rw [h1]
  simp only [List.length_ofFn]
  have hadv : Chain.advance p.cfg b s (vanilla (vanillaSampler (E := E))).beginIteration (vanilla (vanillaSampler (E := E))).endIteration (n : ℤ).toNat =
      Chain.advance p.cfg b s Act.skip Act.skip n := rfl
  by_cases hj : 1 < nJobs.getD (k : ℤ)
  · rw [if_pos hj]
    obtain ⟨evs, cs', h3, h4⟩ := advPar_run (K := K) hm h hk (b := b) hs hL n w₀ w₀ (work 0) k 0 (startsV sps k t).1 h2 (fun j => by
      rw [Nat.zero_add]; exact hw j)
    simp only [Nat.zero_add] at h4
    refine ⟨cs', (startsV sps k t).2, ?_, h4⟩
    have h5 : inversionRun vanillaSampler (vanillaRun p.cfg ⟨some (nJobs.getD (k : ℤ)), work⟩ vanillaSampler n b s)
        ⟨List.ofFn fun j => chainAt sps ((startsV sps k t).1 j) w₀, w₀, 0⟩ (startsV sps k t).2 =
        (.ok evs, ⟨cs', w₀, 1⟩, (startsV sps k t).2) := by
      unfold inversionRun vanillaRun SamplerDef.advanceChain
      rw [hadv]
      have h6 : Samp.each ⟨some (nJobs.getD (k : ℤ)), work⟩ (Chain.advance p.cfg b s Act.skip Act.skip n)
          ⟨List.ofFn fun j => chainAt sps ((startsV sps k t).1 j) w₀, w₀, 0⟩ (startsV sps k t).2 =
          (.ok evs, ⟨cs', w₀, 1⟩, (startsV sps k t).2) := by
        unfold Samp.each
        simp only [if_pos hj, h3]
      refine (act_bind_of rfl).trans ((act_bind_of h6).trans rfl)
    rw [h5]
  · rw [if_neg hj]
    obtain ⟨evs, cs', w', t', h3, h4⟩ := advSeq_run (K := K) hm h hk (b := b) hs hL n w₀ k (startsV sps k t).1 w₀ (startsV sps k t).2 h2
      (fun d hd => hu d (by rw [hdrop] at hd; exact List.mem_of_mem_drop hd)) (by
        rw [hdrop, List.length_drop]
        omega)
    refine ⟨cs', t', ?_, h4⟩
    have h5 : inversionRun vanillaSampler (vanillaRun p.cfg ⟨some (nJobs.getD (k : ℤ)), work⟩ vanillaSampler n b s)
        ⟨List.ofFn fun j => chainAt sps ((startsV sps k t).1 j) w₀, w₀, 0⟩ (startsV sps k t).2 =
        (.ok evs, ⟨cs', w', 1⟩, t') := by
      unfold inversionRun vanillaRun SamplerDef.advanceChain
      rw [hadv]
      have h6 : Samp.each ⟨some (nJobs.getD (k : ℤ)), work⟩ (Chain.advance p.cfg b s Act.skip Act.skip n)
          ⟨List.ofFn fun j => chainAt sps ((startsV sps k t).1 j) w₀, w₀, 0⟩ (startsV sps k t).2 =
          (.ok evs, ⟨cs', w', 1⟩, t') := by
        unfold Samp.each
        simp only [if_neg hj, h3]
      refine (act_bind_of rfl).trans ((act_bind_of h6).trans rfl)
    rw [h5]

/-! ### the results -/

theorem holds_nodup : ∀ {cs : List (Chain State Store E)} {yss : List (List (Values sps))}, List.Forall₂ (Holds sps) cs yss →
    ∀ c ∈ cs, (dkeys c.saved).Nodup
  | _, _, .nil, c, hc => (List.not_mem_nil hc).elim
  | _, _, .cons h1 h2, c, hc => by
    rcases List.mem_cons.1 hc with rfl | hc
    · exact h1.2
    · exact holds_nodup h2 c hc

theorem holds_under {cs : List (Chain State Store E)} {yss : List (List (Values sps))} (h : List.Forall₂ (Holds sps) cs yss) {k : String}
    {v : Values sps → SVal} (hv : ∀ (c : Chain State Store E) ys, Holds sps c ys → savedUnder k c.saved = ys.map v) :
    ((cs.map fun c : Chain State Store E => c.saved).flatMap fun x => (dget x k).getD []) = yss.flatten.map v := by
  induction h with
  | nil => rfl
  | cons hy _ ih =>
    rw [List.map_cons, List.flatMap_cons, ih, List.flatten_cons, List.map_append]
    congr 1
    exact hv _ _ hy

theorem results_run {k : ℕ} {nJobs : Option ℤ} {work : ℕ → ℕ → List Draw} {n b s : ℤ} {w₀ : E} {t t' : List Draw}
    {cs : List (Chain State Store E)} (h : p.sample k nJobs work n b s w₀ t = (.ok cs, t')) {yss : List (List (Values sps))}
    (hy : List.Forall₂ (Holds sps) cs yss) (hne : yss ≠ []) :
    ∃ res, p.results k nJobs work n b s w₀ t = (.ok (.named res), t') ∧ HasResults sps res yss.flatten := by
  classical
  unfold Problem.results
  rw [h]
  simp only
  cases hy with
  | nil => exact (hne rfl).elim
  | @cons c ys cs' yss' hc hcs =>
    have hnd : ∀ d ∈ c.saved :: cs'.map (fun c => c.saved), (dkeys d).Nodup := by
      intro d hd
      rcases List.mem_cons.1 hd with rfl | hd
      · exact hc.2
      · obtain ⟨c', hc', rfl⟩ := List.mem_map.1 hd
        exact holds_nodup hcs c' hc'
    obtain ⟨res, h1, h2⟩ := Props.C54_concatenated (V := SVal) (fun _ => .int 0) (fun _ => true) (fun _ => .error .typeError)
      c.saved (cs'.map fun c => c.saved) .all hnd
    refine ⟨res, ?_, fun i => ?_⟩
    · rw [← h1]
      congr 3
      simp
    · have key : ∀ (q : String) (v : Values sps → SVal), (∀ (c : Chain State Store E) ys, Holds sps c ys → savedUnder q c.saved = ys.map v) →
          resultsUnder q res = (ys :: yss').flatten.map fun y => .one (v y) := by
        intro q v hv
        have h3 := holds_under (List.Forall₂.cons hc hcs) hv
        rw [List.map_cons] at h3
        have h4 : (ys :: yss').flatten.map (fun y => Entry.one (v y)) = ((ys :: yss').flatten.map v).map .one := by
          rw [List.map_map]; rfl
        unfold resultsUnder
        rw [h4, ← h3]
        by_cases hex : ∃ d' ∈ c.saved :: cs'.map (fun c => c.saved), q ∈ dkeys d'
        · rw [(h2 q).1 ⟨trivial, hex⟩]
          rfl
        · rw [(h2 q).2 fun hh => hex hh.2]
          have h5 : ((c.saved :: cs'.map fun c => c.saved).flatMap fun x => (dget x q).getD []) = [] := by
            rw [List.flatMap_eq_nil_iff]
            intro d hd
            have : q ∉ dkeys d := fun hq => hex ⟨d, hd, hq⟩
            rw [dget_none_iff.2 this]
            rfl
          rw [h5]
          rfl
      refine ⟨fun j => key _ _ fun c ys hh => ?_, fun htr => key _ _ fun c ys hh => ?_⟩
      · exact ((hh.1 i).1 j).trans (List.nil_append _)
      · exact ((hh.1 i).2 htr).trans (List.nil_append _)

end BB.Lemmas

import Verif.Lemmas.SafeModels
import Verif.Lemmas.WholeSwaps
import Verif.Lemmas.WholeResults
import Verif.Spec.WholeTempering

/-!
# Lemmas: whole inversions by parallel tempering
-/

namespace BB.Lemmas

open BB BB.Spec BB.Props MeasureTheory

/-! ### swaps -/

section

variable {S σ E : Type} {cfg : ChainCfg S σ} {Good : S → ℝ → Prop} {m : ℕ}

/-- With probability one, the swaps are completed. -/
theorem rounds_bound (hm : 1 ≤ m) (hg : Scored cfg Good) {l : Fin (m + 1) → ℝ} {v : ENNReal} : ∀ (n : ℕ) (s : Samp S σ E)
    (τ : Fin (m + 1) → ℝ) (G : List Draw → ENNReal), (∀ i, τ i ≠ 0) → Tempered Good τ l s →
    (∀ t s' τ', (∀ r, ptSwaps cfg n s (t ++ r) = (.ok (), s', r)) → Tempered Good τ' l s' → v ≤ G t) → v ≤ roundsMean m n G
  | 0, s, τ, G, _, hs, h => h [] s τ (fun _ => rfl) hs
  | n + 1, s, τ, G, hτ, hs, h => by
    have key : ∀ (i : Fin (m + 1)) (j : Fin m), v ≤ ∫⁻ u, roundsMean m n (fun t => G (roundDraws i j u ++ t)) ∂unit := by
      intro i j
      have e : v = ∫⁻ _, v ∂unit := by rw [lintegral_const, measure_univ, mul_one]
      rw [e]
      refine lintegral_mono_ae (unit_pos.mono fun u hu => ?_)
      obtain ⟨s', h1, h2⟩ := round_run hg hτ hs i j hu
      refine rounds_bound hm hg n s' _ _ (fun q => ?_) h2 fun t s'' τ' h3 h4 => h _ s'' τ' (fun r => ?_) h4
      · split
        · exact hτ _
        · exact hτ q
      · rw [List.append_assoc]
        unfold ptSwaps
        exact (act_bind_of (h1 (t ++ r))).trans (h3 r)
    unfold roundsMean
    have hm' : (m : ENNReal) ≠ 0 := by
      rw [Nat.cast_ne_zero]
      omega
    have e : v = ∑ _i : Fin (m + 1), ∑ _j : Fin m, (((m : ENNReal) + 1) * m)⁻¹ * v := by
      rw [Finset.sum_const, Finset.sum_const, Finset.card_univ, Finset.card_univ, Fintype.card_fin, Fintype.card_fin, nsmul_eq_mul,
        nsmul_eq_mul, ← mul_assoc, ← mul_assoc, Nat.cast_add, Nat.cast_one, ENNReal.mul_inv_cancel, one_mul]
      · exact mul_ne_zero (by simp) hm'
      · exact ENNReal.mul_ne_top (ENNReal.add_ne_top.2 ⟨ENNReal.natCast_ne_top m, ENNReal.one_ne_top⟩) (ENNReal.natCast_ne_top m)
    rw [e]
    exact Finset.sum_le_sum fun i _ => Finset.sum_le_sum fun j _ => mul_le_mul_right (key i j) _

end

variable {E : Type} {p : Problem} {B : ℕ → Block} {logLik : Whole p B → ℝ}

/-! ### one chain -/

theorem skip_advance {b s : ℤ} : ∀ (n : ℕ) {c c' : Chain State Store E} {t t' : List Draw} {evs : List (Event State)},
    Chain.advance p.cfg b s Act.skip Act.skip n c t = (.ok evs, c', t') →
    c'.temp = c.temp ∧ c'.total = c.total + n ∧ ∀ ev ∈ evs, ev.temp = c.temp
  | 0, c, c', t, t', evs, h => by
    rw [advance_zero] at h
    cases h
    exact ⟨rfl, rfl, fun _ h => by cases h⟩
  | n + 1, c, c', t, t', evs, h => by
    obtain ⟨ev, evs', c1, t1, rfl, h1, h2⟩ := (advance_succ_ok p.cfg).1 h
    obtain ⟨c2, c3, c4, t2, t3, b1, b2, b3, b4⟩ := (iteration_ok p.cfg).1 h1
    have e1 := ((setFlag_ok).1 b1).2.2
    cases b2
    cases b4
    have e3 := next_effect p.cfg b3
    obtain ⟨g1, g2, g3⟩ := skip_advance n h2
    have k1 : c2.temp = c.temp := by rw [e1]
    have k2 : c2.total = c.total := by rw [e1]
    have k3 : c1.temp = c.temp := e3.temp.trans k1
    refine ⟨g1.trans k3, by rw [g2, e3.total, k2]; omega, fun x hx => ?_⟩
    rcases List.mem_cons.1 hx with rfl | hx
    · rw [e3.evTemp, k1]
    · rw [g3 x hx, k3]

theorem dueStates_hot {b s : ℤ} : ∀ (evs : List (Event State)) (i : ℕ), (∀ ev ∈ evs, ev.temp ≠ 1) → dueStates b s i evs = []
  | [], _, _ => rfl
  | ev :: evs, i, h => by
    rw [dueStates, if_neg fun hh => h ev (List.mem_cons_self ..) hh.2, dueStates_hot evs (i + 1) fun e he => h e (List.mem_cons_of_mem _ he)]
    rfl

open Classical in
theorem batch_length {b s : ℤ} {n : ℕ} {c c' : Chain State Store E} {t t' : List Draw} {evs : List (Event State)}
    (h : Chain.advance p.cfg b s Act.skip Act.skip n c t = (.ok evs, c', t')) :
    (dueStates b s (c.total + 1) evs).length = if c.temp = 1 then Nat.count (fun i => Due b s (c.total + 1 + i)) n else 0 := by
  by_cases hc : c.temp = 1
  · rw [if_pos hc]
    exact tempers_length (tempers_skip b s) n hc h
  · rw [if_neg hc, dueStates_hot evs _ fun ev hev => by rw [(skip_advance n h).2.2 ev hev]; exact hc]
    rfl

/-! ### all chains -/

/-- The chains of a sampler with the temperatures `Ts` after `M` iterations, when `N` more iterations are to be made and `L` samples have
been saved. -/
structure Fit (logLik : Whole p B → ℝ) (R : ∀ i : Fin p.cfg.perturbs.length, Realization p.tf p.cfg.perturbs[i].2 (B i)) (Ts : List ℝ)
    (N M L : ℕ) (s : Samp State Store E) : Prop where
  temps : (s.chains.map (·.temp)).Perm Ts
  ready : ∀ c ∈ s.chains, Ready p B c.temp c ∧ wholeOf p B c.cur.params ∈ safeWhole logLik R Ts N
  world : ∀ c ∈ s.chains, c.world = s.world
  total : ∀ c ∈ s.chains, c.total = M
  nodup : ∀ c ∈ s.chains, (dkeys c.saved).Nodup
  saved : ∃ stss, List.Forall₂ (fun (c : Chain State Store E) sts => SavesStates p [] c.saved sts) s.chains stss ∧ stss.flatten.length = L

/-- A state at a model from which `n` more iterations are completed. -/
def AtSafe (logLik : Whole p B → ℝ) (R : ∀ i : Fin p.cfg.perturbs.length, Realization p.tf p.cfg.perturbs[i].2 (B i)) (Ts : List ℝ) (n : ℕ)
    (s : State) (l : ℝ) : Prop :=
  AtModel p B logLik s l ∧ wholeOf p B s.params ∈ safeWhole logLik R Ts n ∧ s.extra = []

variable {R : ∀ i : Fin p.cfg.perturbs.length, Realization p.tf p.cfg.perturbs[i].2 (B i)} {Ts : List ℝ} {N M L : ℕ}

theorem safe_scored (h : AnyProblem p B logLik) : Scored p.cfg (AtSafe logLik R Ts N) := by
  have hw := whole_scored h
  have step : ∀ a b T, ((p.cfg.llr a b T).2.1.params = a.params ∧ (p.cfg.llr a b T).2.2.params = b.params) ∧
      (p.cfg.llr a b T).2.1.extra = a.extra ∧ (p.cfg.llr a b T).2.2.extra = b.extra := by
    intro a b T
    obtain ⟨c1, c2⟩ := llr_step p.kind p.tf p.perturbs p.weights
      (Option.some (p.spaces.map fun kv => (kv.1, kv.2.info.transD))) p.saveDpred a b T
    exact ⟨⟨c1.params, c2.params⟩, c1.extra, c2.extra⟩
  constructor
  · exact fun a b la lb T hT ha hb => hw.ratio a b la lb T hT ha.1 hb.1
  · intro a b la lb T ha hb
    refine ⟨hw.left a b la lb T ha.1 hb.1, ?_, ?_⟩
    · rw [(step a b T).1.1]
      exact ha.2.1
    · rw [(step a b T).2.1]
      exact ha.2.2
  · intro a b la lb T ha hb
    refine ⟨hw.right a b la lb T ha.1 hb.1, ?_, ?_⟩
    · rw [(step a b T).1.2]
      exact hb.2.1
    · rw [(step a b T).2.2]
      exact hb.2.2
  · exact fun a l T ha => ha

theorem safe_possible {x : Whole p B} (hx : x ∈ safeWhole logLik R Ts N) : PossibleWhole x := fun i => by
  rw [← (R i).possible]
  exact (safe_sub _ hx i).1

/-- The chains before the swaps. -/
theorem fit_tempered {m : ℕ} {s : Samp State Store E} (hs : Fit logLik R Ts N M L s) (hlen : s.chains.length = m + 1) (hTs : ∀ T ∈ Ts, T ≠ 0) :
    ∃ τ l : Fin (m + 1) → ℝ, (∀ i, τ i ≠ 0) ∧ Tempered (AtSafe logLik R Ts N) τ l s := by
  have hi : ∀ i : Fin (m + 1), (i : ℕ) < s.chains.length := fun i => by rw [hlen]; exact i.2
  refine ⟨fun i => (s.chains[i]'(hi i)).temp, fun i => logLik (wholeOf p B (s.chains[i]'(hi i)).cur.params), fun i => ?_,
    fun i => s.chains[i]'(hi i), ?_, fun i => ⟨rfl, ?_⟩⟩
  · exact hTs _ (hs.temps.subset (List.mem_map.2 ⟨_, List.getElem_mem (hi i), rfl⟩))
  · refine List.ext_getElem (by rw [hlen, List.length_ofFn]) fun i h1 h2 => ?_
    rw [List.getElem_ofFn]
    rfl
  · have h1 := hs.ready _ (List.getElem_mem (hi i))
    exact ⟨⟨h1.1.holds, safe_possible h1.2, h1.1.cache, rfl⟩, h1.2, h1.1.extra⟩

theorem forall₂_right {A B' : Type} {R : A → B' → Prop} {as : List A} {bs : List B'} (h : List.Forall₂ R as bs) {b : B'} (hb : b ∈ bs) :
    ∃ a ∈ as, R a b := by
  induction h with
  | nil => cases hb
  | cons h1 _ ih =>
    rcases List.mem_cons.1 hb with rfl | hb
    · exact ⟨_, List.mem_cons_self .., h1⟩
    · obtain ⟨a, h2, h3⟩ := ih hb
      exact ⟨a, List.mem_cons_of_mem _ h2, h3⟩

theorem forall₂_through {A B' C : Type} {R : A → B' → Prop} {P : A → C → Prop} {Q : B' → C → Prop} (h : ∀ a b c, R a b → P a c → Q b c) :
    ∀ {as : List A} {bs : List B'} {cs : List C}, List.Forall₂ R as bs → List.Forall₂ P as cs → List.Forall₂ Q bs cs
  | _, _, _, .nil, .nil => .nil
  | _, _, _, .cons h1 h2, .cons h3 h4 => .cons (h _ _ _ h1 h3) (forall₂_through h h2 h4)

/-- The chains after the swaps. -/
theorem fit_swapped {m : ℕ} {s s' : Samp State Store E} {τ l : Fin (m + 1) → ℝ} (hs : Fit logLik R Ts N M L s) (hr : SwapRel s s')
    (ht : Tempered (AtSafe logLik R Ts N) τ l s') : Fit logLik R Ts N M L s' := by
  obtain ⟨h1, h2, h3, h4⟩ := hr
  obtain ⟨c, hc, hl⟩ := ht
  constructor
  · exact h2.trans hs.temps
  · intro x hx
    obtain ⟨y, hy, g1, g2, g3, g4, g5, -⟩ := forall₂_right h1 hx
    rw [hc] at hx
    obtain ⟨i, rfl⟩ := (List.mem_ofFn' _ _).1 hx
    obtain ⟨-, k2, k3, k4⟩ := hl i
    have hy' := (hs.ready y hy).1
    exact ⟨⟨k2.1, k2.2.2.1, k4, rfl, by rw [g4]; exact hy'.proposed, by rw [g5]; exact hy'.accepted⟩, k3⟩
  · intro x hx
    obtain ⟨y, hy, g⟩ := forall₂_right h1 hx
    rw [g.2.2.2.2.2.2.2, hs.world y hy, h3]
  · intro x hx
    obtain ⟨y, hy, g⟩ := forall₂_right h1 hx
    rw [g.2.1, hs.total y hy]
  · intro x hx
    obtain ⟨y, hy, g⟩ := forall₂_right h1 hx
    rw [g.1]
    exact hs.nodup y hy
  · obtain ⟨stss, g1, g2⟩ := hs.saved
    exact ⟨stss, forall₂_through (fun a b c' k1 k2 => by rw [k1.1]; exact k2) h1 g1, g2⟩

/-! ### the iterations of a batch -/

section

variable {α : Type} {adv : Act (Chain State Store E) α} {Q : Chain State Store E → Prop}

theorem advSeq_on (hpre : ActPrefixed adv) (hw : ∀ c t a c' t', adv c t = (.ok a, c', t') → c'.world = c.world) {w : E} :
    ∀ {cs : List (Chain State Store E)} {ts : List (List Draw)},
    List.Forall₂ (fun c t => ∃ a c', adv c t = (.ok a, c', []) ∧ Q c') cs ts → (∀ c ∈ cs, c.world = w) →
    ∃ as cs', (∀ r, advSeq adv cs w (ts.flatten ++ r) = (.ok as, cs', w, r)) ∧
      List.Forall₂ (fun c c' => ∃ t a, adv c t = (.ok a, c', []) ∧ Q c') cs cs'
  | _, _, .nil, _ => ⟨[], [], fun _ => rfl, .nil⟩
  | c :: cs, t :: ts, .cons ⟨a, c', h1, h2⟩ h3, hc => by
    have hcw : c.world = w := hc c (List.mem_cons_self ..)
    obtain ⟨as, cs', h4, h5⟩ := advSeq_on hpre hw h3 (fun c hc' => hc c (List.mem_cons_of_mem _ hc'))
    refine ⟨a :: as, c' :: cs', fun r => ?_, .cons ⟨t, a, h1, h2⟩ h5⟩
    rw [List.flatten_cons, advSeq, List.append_assoc]
    have e : ({ c with world := w } : Chain State Store E) = c := by rw [← hcw]
    have h6 := hpre c t (ts.flatten ++ r)
    rw [h1] at h6
    rw [e, h6 (by simp)]
    dsimp only
    rw [List.nil_append, hw _ _ _ _ _ h1, hcw, h4]

theorem each_on (hpre : ActPrefixed adv) (hw : ∀ c t a c' t', adv c t = (.ok a, c', t') → c'.world = c.world) (nJobs : ℤ)
    {s : Samp State Store E} {ts : List (List Draw)}
    (h : List.Forall₂ (fun c t => ∃ a c', adv c t = (.ok a, c', []) ∧ Q c') s.chains ts) (hc : ∀ c ∈ s.chains, c.world = s.world) :
    ∃ as cs', (∀ work r, (∀ j, work s.batch j = ts.getD j []) →
        Samp.each ⟨some nJobs, work⟩ adv s ((if 1 < nJobs then [] else ts.flatten) ++ r) = (.ok as, ⟨cs', s.world, s.batch + 1⟩, r)) ∧
      List.Forall₂ (fun c c' => ∃ t a, adv c t = (.ok a, c', []) ∧ Q c') s.chains cs' := by
  by_cases hj : 1 < nJobs
  · obtain ⟨as, cs', h1, h2⟩ := advPar_ran (work := fun j => ts.getD j []) 0 h hc fun i => by rw [Nat.zero_add]
    refine ⟨as, cs', fun work r hwork => ?_, h2⟩
    unfold Samp.each
    have e : work s.batch = fun j => ts.getD j [] := funext hwork
    simp only [if_pos hj, e, h1, List.nil_append]
  · obtain ⟨as, cs', h1, h2⟩ := advSeq_on hpre hw h hc
    refine ⟨as, cs', fun work r hwork => ?_, h2⟩
    unfold Samp.each
    simp only [if_neg hj, h1]

end

theorem saves_append {x y z : Store} {a b : List State} (h1 : SavesStates p x y a) (h2 : SavesStates p y z b) : SavesStates p x z (a ++ b) := by
  intro k
  rw [h2 k, h1 k, List.flatMap_append, List.append_assoc]

open Classical in
theorem batch_saves {b s : ℤ} {n : ℕ} {Q : Chain State Store E → Prop} : ∀ {cs cs' : List (Chain State Store E)} {stss : List (List State)},
    List.Forall₂ (fun c c' => ∃ t evs, Chain.advance p.cfg b s Act.skip Act.skip n c t = (.ok evs, c', []) ∧ Q c') cs cs' →
    List.Forall₂ (fun (c : Chain State Store E) sts => SavesStates p [] c.saved sts) cs stss → (∀ c ∈ cs, c.total = M) →
    ∃ stss', List.Forall₂ (fun (c : Chain State Store E) sts => SavesStates p [] c.saved sts) cs' stss' ∧
      stss'.flatten.length = stss.flatten.length + (cs.map (·.temp)).countP (fun T => T = 1) * Nat.count (fun i => Due b s (M + 1 + i)) n
  | _, _, _, .nil, .nil, _ => ⟨[], .nil, by simp⟩
  | c :: cs, c' :: cs', sts :: stss, .cons ⟨t, evs, h1, _⟩ h2, .cons h3 h4, hM => by
    obtain ⟨stss', g1, g2⟩ := batch_saves h2 h4 fun c hc => hM c (List.mem_cons_of_mem _ hc)
    refine ⟨_, .cons (saves_append h3 (tempers_states (p := p) (tempers_skip b s) h1)) g1, ?_⟩
    rw [List.flatten_cons, List.length_append, List.length_append, g2, batch_length h1, hM c (List.mem_cons_self ..), List.flatten_cons,
      List.length_append, List.map_cons, List.countP_cons]
    by_cases hc : c.temp = 1
    · simp only [hc, if_true, decide_true]
      ring
    · simp only [hc, if_false, decide_false, Bool.false_eq_true]
      ring

open Classical in
/-- The chains after the iterations of a batch. -/
theorem fit_iterated (hp : ∀ kv ∈ p.spaces, SpacePrefixed kv.2) (nJobs : ℤ) {n : ℕ} {b sv : ℤ} {s : Samp State Store E} {ts : List (List Draw)}
    (hs : Fit logLik R Ts (N + n) M L s)
    (h : List.Forall₂ (fun c t => ∃ evs c', Chain.advance p.cfg b sv Act.skip Act.skip n c t = (.ok evs, c', []) ∧
      (Ready p B c'.temp c' ∧ wholeOf p B c'.cur.params ∈ safeWhole logLik R Ts N)) s.chains ts) :
    ∃ evs s', (∀ work r, (∀ j, work s.batch j = ts.getD j []) → Samp.each ⟨some nJobs, work⟩ (Chain.advance p.cfg b sv Act.skip Act.skip n) s
        ((if 1 < nJobs then [] else ts.flatten) ++ r) = (.ok evs, s', r)) ∧ s'.batch = s.batch + 1 ∧ s'.chains.length = s.chains.length ∧
      Fit logLik R Ts N (M + n) (L + Ts.countP (fun T => T = 1) * Nat.count (fun i => Due b sv (M + 1 + i)) n) s' := by
  obtain ⟨evs, cs', h1, h2⟩ := each_on (adv := Chain.advance p.cfg b sv Act.skip Act.skip n)
    (advance_prefixed (perturbs_prefixed hp) b sv (quiet_prefixed (f := id) fun _ _ => rfl) (quiet_prefixed (f := id) fun _ _ => rfl) n)
    (fun c t a c' t' hh => hooked_world (fun c t x c' t' hh => by cases hh; rfl) (fun c t x c' t' hh => by cases hh; rfl) n hh)
    nJobs h hs.world
  refine ⟨evs, _, h1, rfl, h2.length_eq.symm, ?_⟩
  have ht : cs'.map (·.temp) = s.chains.map (·.temp) := by
    have : List.Forall₂ (fun c c' : Chain State Store E => c'.temp = c.temp) s.chains cs' := h2.imp fun c c' hh => by
      obtain ⟨t, evs, g1, -⟩ := hh
      exact (skip_advance n g1).1
    clear h1 h2
    generalize s.chains = cs at this
    induction this with
    | nil => rfl
    | cons g1 _ ih => rw [List.map_cons, List.map_cons, g1, ih]
  constructor
  · dsimp only
    rw [ht]
    exact hs.temps
  · intro c hc
    obtain ⟨c0, -, t, evs, -, g⟩ := forall₂_right h2 hc
    exact g
  · intro c hc
    obtain ⟨c0, hc0, t, evs, g, -⟩ := forall₂_right h2 hc
    rw [hooked_world (fun c t x c' t' hh => by cases hh; rfl) (fun c t x c' t' hh => by cases hh; rfl) n g]
    exact hs.world c0 hc0
  · intro c hc
    obtain ⟨c0, hc0, t, evs, g, -⟩ := forall₂_right h2 hc
    rw [(skip_advance n g).2.1, hs.total c0 hc0]
  · intro c hc
    obtain ⟨c0, hc0, t, evs, g, -⟩ := forall₂_right h2 hc
    exact advance_nodup g (hs.nodup c0 hc0)
  · obtain ⟨stss, g1, g2⟩ := hs.saved
    obtain ⟨stss', g3, g4⟩ := batch_saves h2 g1 hs.total
    refine ⟨stss', g3, ?_⟩
    rw [g4, g2, hs.temps.countP_eq]

/-! ### batches -/

open Classical in
/-- With probability one, a batch is completed. -/
theorem batch_bound (h : AnyProblem p B logLik) (hpn : PlainNames p) (hp : ∀ kv ∈ p.spaces, SpacePrefixed kv.2) (hTs : ∀ T ∈ Ts, T ≠ 0)
    {m : ℕ} (hm : 1 ≤ m) (hlenT : Ts.length = m + 1) {sv : ℤ} (hsv : sv ≠ 0) (fraction tmax : ℝ) (nJobs : ℤ) {n : ℕ} {b : ℤ}
    {s : Samp State Store E} (hs : Fit logLik R Ts (N + n) M L s) {F : List (List Draw) → List Draw → ENNReal}
    (hF : ∀ ts u evs s', (∀ work r, (∀ j, work s.batch j = ts.getD j []) →
        (tempering p.cfg fraction tmax vanillaSampler).advanceChain p.cfg ⟨some nJobs, work⟩ n b sv s (batchTape nJobs (ts, u) ++ r) =
          (.ok evs, s', r)) → s'.batch = s.batch + 1 →
      Fit logLik R Ts N (M + n) (L + Ts.countP (fun T => T = 1) * Nat.count (fun i => Due b sv (M + 1 + i)) n) s' → 1 ≤ F ts u) :
    1 ≤ chainsMean p.cfg b sv Act.skip Act.skip (wholeDraws p B) (wholeLaw p B) n s.chains fun ts => roundsMean m (m + 1) fun u => F ts u := by
  have hone : (s.chains.map fun c => HookedLaw p.cfg b sv Act.skip Act.skip (wholeDraws p B) (wholeLaw p B)
      (fun c' => Ready p B c'.temp c' ∧ wholeOf p B c'.cur.params ∈ safeWhole logLik R Ts N) n c).prod = 1 := by
    refine List.prod_eq_one fun x hx => ?_
    obtain ⟨c, hc, rfl⟩ := List.mem_map.1 hx
    have hT : c.temp ∈ Ts := hs.temps.subset (List.mem_map.2 ⟨c, hc, rfl⟩)
    exact safe_run (b := b) h hpn hTs R hT hsv N n c (hs.ready c hc).1 (hs.ready c hc).2
  have h1 := chains_bound (b := b) (s := sv) (beginIt := Act.skip) (endIt := Act.skip) (enc := wholeDraws p B) (draws := wholeLaw p B) (v := 1) (n := n)
    (perturbs_prefixed hp) (quiet_prefixed (f := id) fun _ _ => rfl) (quiet_prefixed (f := id) fun _ _ => rfl)
    (Q := fun c' => Ready p B c'.temp c' ∧ wholeOf p B c'.cur.params ∈ safeWhole logLik R Ts N) s.chains
    (fun ts => roundsMean m (m + 1) fun u => F ts u) fun ts hts => by
      obtain ⟨evs, s1, g1, g2, g3, g4⟩ := fit_iterated hp nJobs hs hts
      have hlen : s1.chains.length = m + 1 := by
        rw [← hlenT, ← g4.temps.length_eq, List.length_map]
      obtain ⟨τ, l, k1, k2⟩ := fit_tempered g4 hlen hTs
      refine rounds_bound hm (safe_scored h) (m + 1) s1 τ _ k1 k2 fun u s' τ' k3 k4 => ?_
      have hrel : SwapRel s1 s' := (ptSwaps_keeps p.cfg (m + 1)).ok (k3 [])
      refine hF ts u evs s' (fun work r hwork => ?_) (hrel.2.2.2.trans g2) (fit_swapped g4 hrel k4)
      refine (advanceChain_ok).2 ⟨s1, u ++ r, ?_, ?_⟩
      · have e : batchTape nJobs (ts, u) ++ r = (if 1 < nJobs then [] else ts.flatten) ++ (u ++ r) := by
          unfold batchTape
          split <;> simp
        rw [e]
        exact g1 work (u ++ r) hwork
      · have : (ptEndAdvance p.cfg : Act (Samp State Store E) Unit) s1 (u ++ r) = ptSwaps p.cfg s1.chains.length s1 (u ++ r) := rfl
        rw [hlen, k3 r] at this
        exact this
  rwa [hone, mul_one] at h1

/-- The batch number `i`. -/
def batchAt (e n : ℕ) (b : ℤ) (i : ℕ) : ℕ × ℤ := (min e (n - min (i * e) n), max 0 (min e (b - (min (i * e) n : ℕ))))

open Classical in
theorem count_congr' {P Q : ℕ → Prop} {n : ℕ} (h : ∀ j < n, P j ↔ Q j) : Nat.count P n = Nat.count Q n := by
  rw [Nat.count_eq_card_filter_range, Nat.count_eq_card_filter_range]
  congr 1
  exact Finset.filter_congr fun j hj => h j (Finset.mem_range.1 hj)

open Classical in
theorem batch_count {e n : ℕ} (he : 1 ≤ e) (b sv : ℤ) (i : ℕ) :
    Nat.count (fun t => BatchDue e b sv (t + 1)) (min (i * e) n + (batchAt e n b i).1) =
      Nat.count (fun t => BatchDue e b sv (t + 1)) (min (i * e) n) +
        Nat.count (fun j => Due (batchAt e n b i).2 sv (min (i * e) n + 1 + j)) (batchAt e n b i).1 := by
  rw [Nat.count_add]
  congr 1
  refine count_congr' fun j hj => ?_
  unfold batchAt at hj ⊢
  dsimp only at hj ⊢
  have h1 : min (i * e) n = i * e := by omega
  rw [h1] at hj ⊢
  unfold BatchDue
  dsimp only
  have h2 : (((i * e + j + 1 : ℕ) : ℤ) - 1) / (e : ℤ) = i := by
    have : (((i * e + j + 1 : ℕ) : ℤ) - 1) = (j : ℤ) + i * e := by
      push_cast
      ring
    rw [this, Int.add_mul_ediv_right _ _ (by omega), Int.ediv_eq_zero_of_lt (by omega) (by omega), zero_add]
  rw [h2]
  have h3 : (e : ℤ) * i = ((i * e : ℕ) : ℤ) := by
    push_cast
    ring
  rw [h3, show i * e + j + 1 = i * e + 1 + j by omega]

theorem batch_more {e n i : ℕ} (he : 1 ≤ e) : i < (n + e - 1) / e ↔ i * e < n := by
  rw [← Nat.succ_le_iff, Nat.le_div_iff_mul_le (by omega), Nat.succ_mul]
  omega

open Classical in
/-- With probability one, the batches from number `i` on are completed. -/
theorem batches_bound (h : AnyProblem p B logLik) (hpn : PlainNames p) (hp : ∀ kv ∈ p.spaces, SpacePrefixed kv.2) (hTs : ∀ T ∈ Ts, T ≠ 0)
    {m : ℕ} (hm : 1 ≤ m) (hlenT : Ts.length = m + 1) {sv : ℤ} (hsv : sv ≠ 0) (fraction tmax : ℝ) (nJobs : ℤ) {e : ℕ} (he : 1 ≤ e) (n : ℕ)
    (b : ℤ) : ∀ (k i : ℕ), i + k = (n + e - 1) / e → ∀ (s : Samp State Store E), s.batch = i →
    Fit logLik R Ts (n - min (i * e) n) (min (i * e) n)
      (Ts.countP (fun T => T = 1) * Nat.count (fun t => BatchDue e b sv (t + 1)) (min (i * e) n)) s →
    ∀ F : List BatchDraws → ENNReal, (∀ bs fuel evs s', (∀ work r, (∀ i' j, work (i + i') j = (bs.getD i' ([], [])).1.getD j []) →
        ptRun p.cfg ⟨some nJobs, work⟩ (tempering p.cfg fraction tmax vanillaSampler) e n b sv fuel s (bs.flatMap (batchTape nJobs) ++ r) =
          (.ok (some evs), s', r)) →
      Fit logLik R Ts 0 n (Ts.countP (fun T => T = 1) * Nat.count (fun t => BatchDue e b sv (t + 1)) n) s' → 1 ≤ F bs) →
    1 ≤ batchesMean p.cfg sv (tempering p.cfg fraction tmax vanillaSampler) nJobs (wholeDraws p B) (wholeLaw p B) m
      ((List.range' i (k + 1)).map (batchAt e n b)) s F := by
  intro k
  induction k with
  | zero =>
    intro i hi s hbatch hs F hF
    have hge : n ≤ i * e := by
      by_contra hlt
      have := (batch_more (n := n) (i := i) he).2 (by omega)
      omega
    have hM : min (i * e) n = n := by omega
    have hx : batchAt e n b i = (0, max 0 (min (e : ℤ) (b - (n : ℕ)))) := by
      unfold batchAt
      rw [hM, Nat.sub_self, Nat.min_zero]
    rw [List.range'_one, List.map_cons, List.map_nil, batchesMean, hx]
    rw [hM] at hs
    refine batch_bound (N := 0) h hpn hp hTs hm hlenT hsv fraction tmax nJobs (by rw [Nat.sub_self] at hs; exact hs) fun ts u evs s' g1 g2 g3 => ?_
    have g4 := g1 (fun _ j => ts.getD j []) [] (fun _ => rfl)
    rw [List.append_nil] at g4
    rw [g4]
    dsimp only
    rw [batchesMean]
    refine hF _ 1 evs s' (fun work r hwork => ?_) ?_
    · rw [ptRun_succ]
      have hne : ∃ c0, s.chains.head? = some c0 ∧ c0.total = n := by
        cases hc : s.chains with
        | nil =>
          have := hs.temps.length_eq
          rw [hc, hlenT] at this
          simp at this
        | cons c0 cs => exact ⟨c0, rfl, hs.total c0 (by rw [hc]; exact List.mem_cons_self ..)⟩
      obtain ⟨c0, e1, e2⟩ := hne
      rw [e1]
      dsimp only
      rw [e2]
      have e3 : ptIterations e n n = ((0 : ℕ) : ℤ) := by
        unfold ptIterations
        push_cast
        omega
      have e4 : ptBurnin e b n = max 0 (min (e : ℤ) (b - (n : ℕ))) := rfl
      have e5 := g1 work r fun j => by
        have := hwork 0 j
        rw [hbatch]
        exact this
      rw [e3, e4, List.flatMap_cons, List.flatMap_nil, List.append_nil, e5]
      dsimp only
      rw [if_pos le_rfl]
    · rw [Nat.add_zero, Nat.count_zero, Nat.mul_zero, Nat.add_zero] at g3
      exact g3
  | succ k ih =>
    intro i hi s hbatch hs F hF
    have hlt : i * e < n := (batch_more (n := n) (i := i) he).1 (by omega)
    have hM : min (i * e) n = i * e := by omega
    have hM' : min (i * e) n + (batchAt e n b i).1 = min ((i + 1) * e) n := by
      unfold batchAt
      dsimp only
      rw [Nat.succ_mul]
      omega
    have hN : n - min (i * e) n = (n - min ((i + 1) * e) n) + (batchAt e n b i).1 := by
      unfold batchAt
      dsimp only
      rw [Nat.succ_mul]
      omega
    rw [List.range'_succ, List.map_cons, batchesMean]
    rw [hN] at hs
    refine batch_bound h hpn hp hTs hm hlenT hsv fraction tmax nJobs hs fun ts u evs s' g1 g2 g3 => ?_
    have g4 := g1 (fun _ j => ts.getD j []) [] (fun _ => rfl)
    rw [List.append_nil] at g4
    rw [g4]
    dsimp only
    rw [← Nat.mul_add, ← batch_count he, hM'] at g3
    refine ih (i + 1) (by omega) s' (by rw [g2, hbatch]) g3 _ fun bs fuel evs' s'' k1 k2 => ?_
    refine hF _ (fuel + 1) (joinEvents evs evs') s'' (fun work r hwork => ?_) k2
    rw [ptRun_succ]
    have hne : ∃ c0, s.chains.head? = some c0 ∧ c0.total = min (i * e) n := by
      cases hc : s.chains with
      | nil =>
        have := hs.temps.length_eq
        rw [hc, hlenT] at this
        simp at this
      | cons c0 cs => exact ⟨c0, rfl, hs.total c0 (by rw [hc]; exact List.mem_cons_self ..)⟩
    obtain ⟨c0, e1, e2⟩ := hne
    rw [e1]
    dsimp only
    rw [e2]
    have e3 : ptIterations e n (min (i * e) n : ℕ) = (((batchAt e n b i).1 : ℕ) : ℤ) := by
      unfold ptIterations batchAt
      dsimp only
      omega
    have e4 : ptBurnin e b (min (i * e) n : ℕ) = (batchAt e n b i).2 := rfl
    have e5 := g1 work (bs.flatMap (batchTape nJobs) ++ r) fun j => by
      have := hwork 0 j
      rw [hbatch]
      exact this
    rw [e3, e4, List.flatMap_cons, List.append_assoc, e5]
    dsimp only
    rw [if_neg (by rw [hM]; exact_mod_cast not_le.2 hlt), k1 work r fun i' j => by
      have := hwork (i' + 1) j
      rw [show i + 1 + i' = i + (i' + 1) by omega, this, List.getD_cons_succ]]

/-! ### the start -/

/-- The temperatures. -/
noncomputable def ladder (m : ℕ) (fraction tmax : ℝ) : List ℝ :=
  List.replicate (max 2 (⌊((m + 1 : ℕ) : ℝ) * fraction⌋₊) - 1) 1 ++
    (List.range (m + 1 - (max 2 (⌊((m + 1 : ℕ) : ℝ) * fraction⌋₊) - 1))).map fun i : ℕ =>
      tmax ^ ((i : ℝ) / (((m + 1 - (max 2 (⌊((m + 1 : ℕ) : ℝ) * fraction⌋₊) - 1) : ℕ) : ℝ) - 1))

theorem ladder_ok {m : ℕ} {fraction tmax : ℝ} (ht : 0 < tmax) (hk : max 2 (⌊((m + 1 : ℕ) : ℝ) * fraction⌋₊) ≤ m + 1) :
    ptLadder (m + 1) fraction tmax = .ok (ladder m fraction tmax) := by
  unfold ptLadder geomspace ladder
  dsimp only
  rw [if_pos (by omega), if_neg ht.ne', if_neg (not_lt.2 ht.le)]

theorem ladder_length {m : ℕ} {fraction tmax : ℝ} (hk : max 2 (⌊((m + 1 : ℕ) : ℝ) * fraction⌋₊) ≤ m + 1) :
    (ladder m fraction tmax).length = m + 1 := by
  unfold ladder
  rw [List.length_append, List.length_replicate, List.length_map, List.length_range]
  omega

theorem ladder_ne {m : ℕ} {fraction tmax : ℝ} (ht : 0 < tmax) : ∀ T ∈ ladder m fraction tmax, T ≠ 0 := by
  intro T hT
  unfold ladder at hT
  rcases List.mem_append.1 hT with h | h
  · rw [(List.mem_replicate.1 h).2]
    exact one_ne_zero
  · obtain ⟨i, -, rfl⟩ := List.mem_map.1 h
    exact (Real.rpow_pos_of_pos ht _).ne'

open Classical in
theorem ladder_cold {m : ℕ} {fraction tmax : ℝ} (ht : 0 < tmax) (hk : max 2 (⌊((m + 1 : ℕ) : ℝ) * fraction⌋₊) ≤ m + 1) :
    (ladder m fraction tmax).countP (fun T => T = 1) = if tmax = 1 then m + 1 else max 2 (⌊((m + 1 : ℕ) : ℝ) * fraction⌋₊) := by
  by_cases h1 : tmax = 1
  · rw [if_pos h1, ← ladder_length (tmax := tmax) hk]
    refine List.countP_eq_length.2 fun T hT => ?_
    unfold ladder at hT
    rw [h1] at hT
    rcases List.mem_append.1 hT with h | h
    · exact decide_eq_true (List.mem_replicate.1 h).2
    · obtain ⟨i, -, rfl⟩ := List.mem_map.1 h
      exact decide_eq_true (Real.one_rpow _)
  · rw [if_neg h1]
    unfold ladder
    obtain ⟨q, hq⟩ : ∃ q, m + 1 - (max 2 (⌊((m + 1 : ℕ) : ℝ) * fraction⌋₊) - 1) = q + 1 :=
      ⟨m + 1 - (max 2 (⌊((m + 1 : ℕ) : ℝ) * fraction⌋₊) - 1) - 1, by omega⟩
    rw [hq, List.countP_append, List.range_succ_eq_map, List.map_cons, List.countP_cons, List.map_map]
    have e1 : (List.replicate (max 2 (⌊((m + 1 : ℕ) : ℝ) * fraction⌋₊) - 1) (1 : ℝ)).countP (fun T => decide (T = 1)) =
        max 2 (⌊((m + 1 : ℕ) : ℝ) * fraction⌋₊) - 1 := by
      rw [List.countP_eq_length.2 fun T hT => decide_eq_true (List.mem_replicate.1 hT).2, List.length_replicate]
    have e2 : ((List.range q).map ((fun i : ℕ => tmax ^ ((i : ℝ) / (((q + 1 : ℕ) : ℝ) - 1))) ∘ Nat.succ)).countP (fun T => decide (T = 1)) = 0 := by
      refine List.countP_eq_zero.2 fun T hT => ?_
      obtain ⟨i, hi, rfl⟩ := List.mem_map.1 hT
      have hi' := List.mem_range.1 hi
      simp only [decide_eq_true_eq, Function.comp_apply]
      intro h2
      have h4 := congrArg Real.log h2
      rw [Real.log_rpow ht, Real.log_one] at h4
      rcases (mul_eq_zero.1 h4).symm with h3 | h3
      · rcases Real.log_eq_zero.1 h3 with h5 | h5 | h5
        · exact ht.ne' h5
        · exact h1 h5
        · linarith
      · have hq0 : (0 : ℝ) < q := by exact_mod_cast (by omega : 0 < q)
        push_cast at h3
        rw [add_sub_cancel_right] at h3
        have : (0 : ℝ) < ((i : ℝ) + 1) / q := by positivity
        exact this.ne' h3
    rw [e1, e2, if_pos]
    · omega
    · simp

theorem assign_zip (cfg : ChainCfg State Store) : ∀ (cs : List (Chain State Store E)) (Ts : List ℝ), cs.length = Ts.length →
    assignTemps cfg cs Ts = .ok (List.zipWith (fun c T => c.setTemp cfg T) cs Ts)
  | [], _, _ => rfl
  | c :: cs, T :: Ts, h => by
    rw [assignTemps, assign_zip cfg cs Ts (Nat.succ.inj h)]
    rfl

theorem zip_temps (cfg : ChainCfg State Store) : ∀ (cs : List (Chain State Store E)) (Ts : List ℝ), cs.length = Ts.length →
    (List.zipWith (fun c T => c.setTemp cfg T) cs Ts).map (·.temp) = Ts
  | [], [], _ => rfl
  | c :: cs, T :: Ts, h => by
    rw [List.zipWith_cons_cons, List.map_cons, zip_temps cfg cs Ts (Nat.succ.inj h)]
    rfl

theorem mem_zip (cfg : ChainCfg State Store) : ∀ (cs : List (Chain State Store E)) (Ts : List ℝ) (x : Chain State Store E),
    x ∈ List.zipWith (fun c T => c.setTemp cfg T) cs Ts → ∃ c ∈ cs, ∃ T, x = c.setTemp cfg T
  | [], _, x, h => by cases h
  | c :: cs, [], x, h => by cases h
  | c :: cs, T :: Ts, x, h => by
    rcases List.mem_cons.1 h with rfl | h
    · exact ⟨c, List.mem_cons_self .., T, rfl⟩
    · obtain ⟨c', h1, T', h2⟩ := mem_zip cfg cs Ts x h
      exact ⟨c', List.mem_cons_of_mem _ h1, T', h2⟩

theorem fit_start {w : E} {cs : List (Chain State Store E)} (hlen : cs.length = Ts.length)
    (hnew : ∀ c ∈ cs, (c.saved = [] ∧ c.world = w) ∧ c.total = 0 ∧ c.temp = 1)
    (hr : ∀ c ∈ cs, Ready p B 1 c ∧ wholeOf p B c.cur.params ∈ safeWhole logLik R Ts N) :
    Fit logLik R Ts N 0 0 ⟨List.zipWith (fun c T => c.setTemp p.cfg T) cs Ts, w, 0⟩ := by
  constructor
  · exact List.Perm.of_eq (zip_temps p.cfg cs Ts hlen)
  · intro x hx
    obtain ⟨c, hc, T, rfl⟩ := mem_zip p.cfg cs Ts x hx
    obtain ⟨h1, h2⟩ := hr c hc
    exact ⟨⟨h1.holds, h1.cache, h1.extra, rfl, h1.proposed, h1.accepted⟩, h2⟩
  · intro x hx
    obtain ⟨c, hc, T, rfl⟩ := mem_zip p.cfg cs Ts x hx
    exact (hnew c hc).1.2
  · intro x hx
    obtain ⟨c, hc, T, rfl⟩ := mem_zip p.cfg cs Ts x hx
    exact (hnew c hc).2.1
  · intro x hx
    obtain ⟨c, hc, T, rfl⟩ := mem_zip p.cfg cs Ts x hx
    have : (c.setTemp p.cfg T).saved = [] := (hnew c hc).1.1
    rw [this]
    exact List.nodup_nil
  · have key : ∀ l : List (Chain State Store E), (∀ x ∈ l, x.saved = []) →
        List.Forall₂ (fun (c : Chain State Store E) sts => SavesStates p [] c.saved sts) l (l.map fun _ => []) := by
      intro l
      induction l with
      | nil => exact fun _ => .nil
      | cons x l ih =>
        intro hl
        refine .cons ?_ (ih fun y hy => hl y (List.mem_cons_of_mem _ hy))
        rw [hl x (List.mem_cons_self ..)]
        intro k
        rw [List.flatMap_nil, List.append_nil]
    refine ⟨_, key _ fun x hx => ?_, ?_⟩
    · obtain ⟨c, hc, T, rfl⟩ := mem_zip p.cfg cs Ts x hx
      exact (hnew c hc).1.1
    · generalize List.zipWith (fun c T => c.setTemp p.cfg T) cs Ts = l
      induction l with
      | nil => rfl
      | cons x l ih => exact ih

/-! ### at most one -/

theorem roundsMean_le (m : ℕ) : ∀ (n : ℕ) (G : List Draw → ENNReal), (∀ t, G t ≤ 1) → roundsMean m n G ≤ 1
  | 0, G, h => h []
  | n + 1, G, h => by
    unfold roundsMean
    have h1 : ∀ (i : Fin (m + 1)) (j : Fin m), ∫⁻ u, roundsMean m n (fun t => G (roundDraws i j u ++ t)) ∂unit ≤ 1 := fun i j =>
      (lintegral_mono (g := fun _ => 1) fun u => roundsMean_le m n _ fun t => h _).trans (le_of_eq (by rw [lintegral_one, measure_univ]))
    refine (Finset.sum_le_sum fun i _ => Finset.sum_le_sum fun j _ => mul_le_mul_right (h1 i j) _).trans ?_
    rw [Finset.sum_const, Finset.sum_const, Finset.card_univ, Finset.card_univ, Fintype.card_fin, Fintype.card_fin, nsmul_eq_mul,
        nsmul_eq_mul, mul_one, ← mul_assoc, Nat.cast_add, Nat.cast_one]
    exact ENNReal.mul_inv_le_one _

theorem batchesMean_le {sv nJobs : ℤ} {d : SamplerDef State Store E} (hl : IsProbabilityMeasure (wholeLaw p B)) (m : ℕ) :
    ∀ (l : List (ℕ × ℤ)) (s : Samp State Store E) (F : List BatchDraws → ENNReal), (∀ bs, F bs ≤ 1) →
    batchesMean p.cfg sv d nJobs (wholeDraws p B) (wholeLaw p B) m l s F ≤ 1
  | [], s, F, h => h []
  | x :: l, s, F, h => by
    rw [batchesMean]
    refine chainsMean_le hl _ _ _ fun ts => roundsMean_le m (m + 1) _ fun u => ?_
    split
    · exact batchesMean_le hl m l _ _ fun bs => h _
    · exact zero_le_one

end BB.Lemmas

import Verif.Lemmas.BlockKernel

/-!
# Chains the perturbations of which change one block each
-/

namespace BB.Lemmas

open BB Spec Props MeasureTheory

/-- One block by itself: states, functions one of which is chosen, and moves of the values. -/
structure Local (X Θ : Type) [MeasurableSpace X] [MeasurableSpace Θ] where
  S : Type
  funcs : List (String × (S → M (S × PyF)))
  weights : List ℝ
  val : S → X
  inv : S → Prop
  same : X → X → Prop
  possible : Set X
  enc : Fin funcs.length → S → Θ → List Draw
  moves : Scheme X Θ funcs.length

section

variable {X Θ : Type} [MeasurableSpace X] [MeasurableSpace Θ] (L : Local X Θ)

/-- The chain of one block, with the log likelihood `ℓ`. -/
noncomputable def Local.cfg (ℓ : X → ℝ) : ChainCfg L.S Unit where
  perturbs := L.funcs
  weights := L.weights
  llr := fun s new T => (.ok (.fin ((ℓ (L.val new) - ℓ (L.val s)) / T)), s, new)
  stats := fun _ => .ok []
  setTemp := fun s _ => s
  save := fun _ s => (.ok (), s)

/-- The weights of the functions. -/
noncomputable def Local.w (i : Fin L.funcs.length) : ℝ := L.weights.getD i 0

/-- What has to be shown for a block. -/
structure Local.Ok : Prop where
  len : L.funcs.length = L.weights.length
  nonneg : ∀ w ∈ L.weights, 0 ≤ w
  sum : 0 < L.weights.sum
  ok : L.moves.Ok L.w
  finite : IsFiniteMeasure L.moves.prior
  refl : ∀ x, L.same x x
  lumps : L.moves.Lumps L.same
  possible_meas : MeasurableSet L.possible
  possible_same : Invariant L.same L.possible
  possible_ae : ∀ᵐ x ∂L.moves.prior, x ∈ L.possible
  proposal : ∀ i s, L.inv s → ∀ᵐ θ ∂L.moves.draws, ∃ new lpr,
    (∀ rest, L.funcs[i].2 s (L.enc i s θ ++ rest) = (.ok (new, lpr), rest)) ∧
    L.inv new ∧ L.same (L.val new) (L.moves.move i (L.val s) θ) ∧
    (L.moves.dens i (L.val s, L.moves.move i (L.val s) θ) ≠ 0 →
      lpr = (logQuotient (L.moves.dens (L.moves.rev i) (L.moves.move i (L.val s) θ, L.val s))
        (L.moves.dens i (L.val s, L.moves.move i (L.val s) θ))).num)

variable {L}

theorem Local.Ok.reports (h : L.Ok) (ℓ : X → ℝ) (T : ℝ) : Reports (L.cfg ℓ) L.moves ℓ T L.enc L.val L.inv L.same where
  proposal := h.proposal
  likelihood := fun s new hs hn => ⟨s, new, rfl, hs, hn, h.refl _, h.refl _⟩

end

section

variable {S σ E : Type}

variable {cfg : ChainCfg S σ} {X Θ : Fin cfg.perturbs.length → Type} [∀ i, MeasurableSpace (X i)] [∀ i, MeasurableSpace (Θ i)]

/-- A chain the perturbations of which change one block each. -/
structure Chained (cfg : ChainCfg S σ) {X Θ : Fin cfg.perturbs.length → Type} [∀ i, MeasurableSpace (X i)] [∀ i, MeasurableSpace (Θ i)]
    (L : ∀ i, Local (X i) (Θ i)) (proj : ∀ i, S → (L i).S) (enc : ∀ i, S → ℝ × Θ i → List Draw) (val : S → ∀ i, X i) (inv : S → Prop)
    (ℓ : (∀ i, X i) → ℝ) (T : ℝ) : Prop where
  len : cfg.perturbs.length = cfg.weights.length
  nonneg : ∀ w ∈ cfg.weights, 0 ≤ w
  sum : 0 < cfg.weights.sum
  ok : ∀ i, (L i).Ok
  local_inv : ∀ s, inv s → ∀ i, (L i).inv (proj i s)
  local_val : ∀ s, inv s → ∀ i, (L i).val (proj i s) = val s i
  meas : Measurable ℓ
  lumps : ∀ x y, EachSame (fun i => (L i).same) x y → ℓ x = ℓ y
  sim : ∀ s, inv s → (∀ i, val s i ∈ (L i).possible) → ∀ (i) (j : Fin (L i).funcs.length) θ new' lpr,
    (∀ rest, (L i).funcs[j].2 (proj i s) ((L i).enc j (proj i s) θ ++ rest) = (.ok (new', lpr), rest)) → (L i).inv new' →
    (lpr.isInf = false → (L i).val new' ∈ (L i).possible) → ∀ u ∈ chosen ((L i).cfg fun _ => 0) j,
    ∃ new, (∀ rest, cfg.perturbs[i].2 s (enc i s (u, θ) ++ rest) = (.ok (new, lpr), rest)) ∧
      val new = Function.update (val s) i ((L i).val new') ∧
      (lpr.isInf = false → ∃ cur1 new1, cfg.llr s new T = (.ok (.fin ((ℓ (val new) - ℓ (val s)) / T)), cur1, new1) ∧
        val cur1 = val s ∧ val new1 = val new)

variable {L : ∀ i, Local (X i) (Θ i)} {proj : ∀ i, S → (L i).S} {enc : ∀ i, S → ℝ × Θ i → List Draw} {val : S → ∀ i, X i}
  {inv : S → Prop} {ℓ : (∀ i, X i) → ℝ} {T : ℝ}

/-- The probability that a perturbation is chosen. -/
noncomputable def chance (cfg : ChainCfg S σ) (i : Fin cfg.perturbs.length) : ENNReal :=
  ENNReal.ofReal (weight cfg i / ∑ j, weight cfg j)

theorem chance_sum (hlen : cfg.perturbs.length = cfg.weights.length) (hw : ∀ w ∈ cfg.weights, 0 ≤ w) (hs : 0 < cfg.weights.sum) :
    ∑ i, chance cfg i = 1 := by
  have hsum : 0 < ∑ i, weight cfg i := by rw [sum_weight cfg hlen]; exact hs
  unfold chance
  rw [← ENNReal.ofReal_sum_of_nonneg fun i _ => div_nonneg (weight_nonneg cfg hlen hw i) hsum.le, ← Finset.sum_div,
    div_self hsum.ne', ENNReal.ofReal_one]

theorem Local.Ok.w_nonneg {X Θ : Type} [MeasurableSpace X] [MeasurableSpace Θ] {L : Local X Θ} (h : L.Ok) (j) : 0 ≤ L.w j :=
  weight_nonneg (L.cfg fun _ => 0) h.len h.nonneg j

theorem Local.Ok.w_sum {X Θ : Type} [MeasurableSpace X] [MeasurableSpace Θ] {L : Local X Θ} (h : L.Ok) : 0 < ∑ j, L.w j :=
  lt_of_lt_of_eq h.sum (sum_weight (L.cfg fun _ => 0) h.len).symm

/-- The law of an iteration is a mixture of the transitions of the blocks. -/
theorem blocks_law (H : Chained cfg L proj enc val inv ℓ T) (c : Chain S σ E) (hi : inv c.cur) (htemp : c.temp = T)
    (hfine : ∀ i, val c.cur i ∈ fine (L i).moves (L i).possible) {A : Set (∀ i, X i)} (hA : MeasurableSet A)
    (hAr : Invariant (EachSame fun i => (L i).same) A) :
    IterationLaw cfg (fun i s θ => enc i s (θ i)) (Measure.pi fun i => unit.prod (L i).moves.draws) val c A =
      ∑ i, chance cfg i * blockStep i (L i).moves (L i).w ℓ T (val c.cur) A := by
  have hL := H.ok
  have hfin : ∀ i, IsFiniteMeasure (L i).moves.prior := fun i => (hL i).finite
  have hprob : ∀ i, IsProbabilityMeasure (L i).moves.draws := fun i => (hL i).ok.prob
  set s := c.cur with hsdef
  have hpos : ∀ i, val s i ∈ (L i).possible := fun i => (hfine i).1
  have hv : ∀ i, (L i).val (proj i s) = val s i := fun i => H.local_val s hi i
  have hgood : ∀ i j, ∀ᵐ θ ∂(L i).moves.draws, (L i).moves.dens j ((L i).val (proj i s), (L i).moves.move j ((L i).val (proj i s)) θ) ≠ 0 :=
    fun i j => by
      rw [hv]
      exact (hfine i).2.1 j
  have hrev : ∀ i j, ∀ᵐ θ ∂(L i).moves.draws, (L i).moves.dens ((L i).moves.rev j) ((L i).moves.move j ((L i).val (proj i s)) θ, (L i).val (proj i s)) ≠ 0 →
      (L i).moves.move j ((L i).val (proj i s)) θ ∈ (L i).possible :=
    fun i j => by
      rw [hv]
      exact (hfine i).2.2 j
  have hS : ∀ (i) (j : Fin ((L i).cfg fun y => ℓ (Function.update (val s) i y)).perturbs.length) θ new' lpr,
      (∀ rest, ((L i).cfg fun y => ℓ (Function.update (val s) i y)).perturbs[j].2 (proj i s)
        ((L i).enc j (proj i s) θ ++ rest) = (.ok (new', lpr), rest)) → (L i).inv new' →
      (lpr.isInf = false → (L i).val new' ∈ (L i).possible) → ∀ u ∈ chosen ((L i).cfg fun y => ℓ (Function.update (val s) i y)) j,
      Simulates cfg c cfg.perturbs[i].2 (enc i c.cur (u, θ)) val (fun y => ℓ (Function.update (val s) i y))
        (Function.update (val s) i) ((L i).val (proj i s)) ((L i).val new') lpr := by
    intro i j θ new' lpr k1 k2 k3 u hu
    obtain ⟨new, m1, m2, m3⟩ := H.sim s hi hpos i j θ new' lpr k1 k2 k3 u hu
    refine ⟨new, m1, m2, fun hf => ?_⟩
    obtain ⟨cur1, new1, e1, e2, e3⟩ := m3 hf
    refine ⟨cur1, new1, ?_, e2, e3⟩
    have e4 : Function.update (val s) i ((L i).val (proj i s)) = val s := by rw [hv, Function.update_eq_self]
    change cfg.llr s new c.temp = (.ok (.fin ((ℓ (Function.update (val s) i ((L i).val new')) -
      ℓ (Function.update (val s) i ((L i).val (proj i s)))) / c.temp)), cur1, new1)
    rw [htemp, e4, ← m2]
    exact e1
  have hlaw : ∀ i, stepLaw cfg cfg.perturbs[i].2 (enc i) (unit.prod (L i).moves.draws) val c A =
      blockStep i (L i).moves (L i).w ℓ T (val s) A := by
    intro i
    have hm : Measurable fun y => Function.update (val s) i y := measurable_update _
    have := block_law cfg cfg.perturbs[i].2 (enc i) val c ((L i).cfg fun y => ℓ (Function.update (val s) i y)) (hL i).len
      (hL i).nonneg (hL i).sum (L i).enc (L i).val (L i).moves (hL i).ok (ℓ := fun y => ℓ (Function.update (val s) i y))
      (H.meas.comp hm) (inv := (L i).inv) (r := (L i).same)
      (fun y y' hy => H.lumps _ _ (EachSame.update (fun j => (hL j).refl _) hy))
      (Chain.init (E := Unit) (proj i s) () c.temp ()) rfl (fun _ _ => rfl) ((hL i).reports _ _) (H.local_inv s hi i)
      (hgood i) (hL i).possible_same (hrev i) (Φ := Function.update (val s) i) hm
      (by
        change val s = Function.update (val s) i ((L i).val (proj i s))
        rw [hv, Function.update_eq_self]) (hS i) hA
      (fun y y' hy => hAr _ _ (EachSame.update (fun j => (hL j).refl _) hy))
    rw [this]
    unfold blockStep
    change transition (L i).moves (L i).w _ c.temp ((L i).val (proj i s)) _ = _
    rw [hv, htemp]
    rfl
  have hsteps : ∀ i, StepRuns cfg cfg.perturbs[i].2 (enc i) (unit.prod (L i).moves.draws) c := by
    intro i
    exact block_steps cfg cfg.perturbs[i].2 (enc i) val c ((L i).cfg fun y => ℓ (Function.update (val s) i y)) (hL i).len
      (hL i).nonneg (hL i).sum (L i).enc (L i).val (L i).moves (hL i).ok (ℓ := fun y => ℓ (Function.update (val s) i y))
      (inv := (L i).inv) (r := (L i).same)
      (Chain.init (E := Unit) (proj i s) () c.temp ()) ((hL i).reports _ _) (H.local_inv s hi i)
      (hgood i) (hL i).possible_same (hrev i) (Φ := Function.update (val s) i) (hS i)
  rw [law_mixture cfg H.len H.nonneg H.sum (fun i s (θ : ∀ i, ℝ × Θ i) => enc i s (θ i)) (Measure.pi fun i => unit.prod (L i).moves.draws) val c ?_ A]
  · refine Finset.sum_congr rfl fun i _ => ?_
    rw [stepLaw_eval cfg cfg.perturbs[i].2 (fun i => unit.prod (L i).moves.draws) i (enc i) val c A, hlaw]
    rfl
  · intro i
    have := hsteps i
    unfold StepRuns at this ⊢
    exact (Measure.quasiMeasurePreserving_eval (fun i => unit.prod (L i).moves.draws) i).ae this


/-- A chain the perturbations of which change one block each is in balance with the posterior that the blocks define. -/
theorem blocks_balance (H : Chained cfg L proj enc val inv ℓ T)
    (state : (∀ i, X i) → Chain S σ E)
    (hstate : ∀ᵐ x ∂Measure.pi fun i => (L i).moves.prior, inv (state x).cur ∧ EachSame (fun i => (L i).same) x (val (state x).cur))
    (htemp : ∀ x, (state x).temp = T) :
    DetailedBalanceUpTo (EachSame fun i => (L i).same) (posterior (Measure.pi fun i => (L i).moves.prior) ℓ T)
      (fun x => IterationLaw cfg (fun i s θ => enc i s (θ i)) (Measure.pi fun i => unit.prod (L i).moves.draws) val (state x)) ∧
    PreservesUpTo (EachSame fun i => (L i).same) (posterior (Measure.pi fun i => (L i).moves.prior) ℓ T)
      (fun x => IterationLaw cfg (fun i s θ => enc i s (θ i)) (Measure.pi fun i => unit.prod (L i).moves.draws) val (state x)) := by
  have hL := H.ok
  have hfin : ∀ i, IsFiniteMeasure (L i).moves.prior := fun i => (hL i).finite
  refine mixture_balance (fun i => (L i).moves.prior) (p := fun i => (L i).moves) (w := fun i => (L i).w) (fun i => (hL i).ok)
    (fun i => rfl) (fun i => (hL i).w_nonneg) (fun i => (hL i).w_sum) H.meas T (chance cfg) (chance_sum H.len H.nonneg H.sum)
    (EachSame fun i => (L i).same) _ ?_
  have h1 : ∀ᵐ x ∂Measure.pi fun i => (L i).moves.prior, ∀ i, x i ∈ fine (L i).moves (L i).possible :=
    ae_all_iff.2 fun i => (Measure.quasiMeasurePreserving_eval (fun i => (L i).moves.prior) i).ae
      (fine_ae (hL i).ok (hL i).possible_meas (hL i).possible_ae)
  filter_upwards [h1, hstate] with x g1 g2 A hA hAr
  rw [blocks_law H (state x) g2.1 (htemp x) (fun i => (fine_invariant (hL i).ok (hL i).refl (hL i).lumps (hL i).possible_meas
    (hL i).possible_same _ _ (g2.2 i)).1 (g1 i)) hA hAr]
  exact Finset.sum_congr rfl fun i _ => by
    rw [blockStep_lumps (r := fun i => (L i).same) (hL i).ok (fun i => (hL i).refl) (hL i).lumps H.meas H.lumps hA hAr g2.2]

end

end BB.Lemmas

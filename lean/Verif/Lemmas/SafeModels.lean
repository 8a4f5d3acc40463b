import Verif.Lemmas.Cooling
import Verif.Lemmas.Annealed

/-!
# Lemmas: models from which iterations at several temperatures are completed
-/

namespace BB.Lemmas

open BB BB.Spec MeasureTheory

section

variable {X ι : Type} [MeasurableSpace X] {r : X → X → Prop}

/-- The models from which `n` transitions, each according to any of the kernels in the list, stay in `G`. -/
def safe (K : ι → X → Measure X) (L : List ι) (G : Set X) : ℕ → Set X
  | 0 => G
  | n + 1 => G ∩ {x | ∀ T ∈ L, K T x (safe K L G n)ᶜ = 0}

variable {K : ι → X → Measure X} {L : List ι} {G : Set X}

theorem safe_sub (n : ℕ) : safe K L G n ⊆ G := by
  cases n with
  | zero => exact le_rfl
  | succ n => exact fun x hx => hx.1

theorem safe_meas (hK : ∀ T ∈ L, Measurable (K T)) (hG : MeasurableSet G) : ∀ n, MeasurableSet (safe K L G n)
  | 0 => hG
  | n + 1 => by
    have ih := safe_meas hK hG n
    have e : {x | ∀ T ∈ L, K T x (safe K L G n)ᶜ = 0} = ⋂ T ∈ {T | T ∈ L}, {x | K T x (safe K L G n)ᶜ = 0} := by
      ext x
      simp
    refine hG.inter ?_
    rw [e]
    exact MeasurableSet.biInter (L.finite_toSet.countable) fun T hT =>
      ((Measure.measurable_coe ih.compl).comp (hK T hT)) (measurableSet_singleton 0)

theorem safe_invariant (hK : ∀ T ∈ L, Measurable (K T)) (hr : ∀ T ∈ L, Alike r (K T)) (hG : MeasurableSet G) (hGr : Invariant r G) :
    ∀ n, Invariant r (safe K L G n)
  | 0 => hGr
  | n + 1 => fun x y h => by
    have ih := safe_invariant hK hr hG hGr n
    refine and_congr (hGr x y h) (forall₂_congr fun T hT => ?_)
    rw [hr T hT x y h _ (safe_meas hK hG n).compl (invariant_compl ih)]

theorem safe_ae {π : Measure X} (hK : ∀ T ∈ L, Measurable (K T)) (hπ : ∀ T ∈ L, Spares π (K T)) (hG : MeasurableSet G)
    (hGa : ∀ᵐ x ∂π, x ∈ G) : ∀ n, ∀ᵐ x ∂π, x ∈ safe K L G n
  | 0 => hGa
  | n + 1 => by
    have ih := safe_ae hK hπ hG hGa n
    have h1 : ∀ᵐ x ∂π, ∀ T ∈ {T | T ∈ L}, K T x (safe K L G n)ᶜ = 0 :=
      (ae_ball_iff L.finite_toSet.countable).2 fun T hT => hπ T hT _ (safe_meas hK hG n).compl ih
    filter_upwards [hGa, h1] with x g1 g2
    exact ⟨g1, g2⟩

end

variable {E : Type} {p : Problem} {B : ℕ → Block} {logLik : Whole p B → ℝ}

/-- The law of an iteration at temperature `T`. -/
noncomputable def wholeK (logLik : Whole p B → ℝ) (R : ∀ i : Fin p.cfg.perturbs.length, Realization p.tf p.cfg.perturbs[i].2 (B i)) (T : ℝ) :
    Whole p B → Measure (Whole p B) := mixTrans (fun i => (R i).L.moves) (fun i => (R i).L.w) logLik T (chance p.cfg)

/-- The models from which `n` iterations at any of the temperatures are completed. -/
def safeWhole (logLik : Whole p B → ℝ) (R : ∀ i : Fin p.cfg.perturbs.length, Realization p.tf p.cfg.perturbs[i].2 (B i)) (Ts : List ℝ)
    (n : ℕ) : Set (Whole p B) := safe (wholeK logLik R) Ts (wholeFine R) n

theorem whole_safe (h : AnyProblem p B logLik) {Ts : List ℝ} (hTs : ∀ T ∈ Ts, T ≠ 0) :
    ∃ R : ∀ i : Fin p.cfg.perturbs.length, Realization p.tf p.cfg.perturbs[i].2 (B i), ∀ n,
      MeasurableSet (safeWhole logLik R Ts n) ∧ Invariant SameWhole (safeWhole logLik R Ts n) ∧
      (∀ᵐ x ∂wholePrior p B, x ∈ safeWhole logLik R Ts n) := by
  choose R hR using whole_settled h
  have hreg := whole_regular h
  have hfi : ∀ i : Fin p.cfg.perturbs.length, IsFiniteMeasure (B i).prior := fun i => (hreg i).finite
  have hok : ∀ i, (R i).L.Ok := fun i => (R i).ok
  obtain ⟨-, -, -, hGm, hGr, hdr⟩ := whole_kernel h one_ne_zero R
  have hK : ∀ T ∈ Ts, Measurable (wholeK logLik R T) := fun T hT => (whole_kernel h (hTs T hT) R).1
  have hr : ∀ T ∈ Ts, Alike SameWhole (wholeK logLik R T) := fun T hT => (whole_kernel h (hTs T hT) R).2.2.1
  have hsp : ∀ T ∈ Ts, Spares (wholePrior p B) (wholeK logLik R T) := fun T _ =>
    settled_spares (fun i : Fin p.cfg.perturbs.length => (B i).prior) (fun i => (hok i).ok) (fun i => (hok i).w_nonneg)
      (fun i => (hok i).w_sum) (fun i => (hreg i).meas) (fun i => (hreg i).pos) (fun i => (hreg i).tilt) hR h.meas _ _
  have hfine : ∀ᵐ x ∂wholePrior p B, x ∈ wholeFine R := ae_all_iff.2 fun i =>
      (Measure.quasiMeasurePreserving_eval (fun i : Fin p.cfg.perturbs.length => (B i).prior) i).ae (R i).fine
  exact ⟨R, fun n => ⟨safe_meas hK hGm n, safe_invariant hK hr hGm hGr n, safe_ae hK hsp hGm hfine n⟩⟩

/-- From such a model, the iterations are completed. -/
theorem safe_run (h : AnyProblem p B logLik) (hpn : PlainNames p) {Ts : List ℝ} (hTs : ∀ T ∈ Ts, T ≠ 0)
    (R : ∀ i : Fin p.cfg.perturbs.length, Realization p.tf p.cfg.perturbs[i].2 (B i)) {T : ℝ} (hT : T ∈ Ts) {b s : ℤ} (hs : s ≠ 0) (N : ℕ) :
    ∀ (n : ℕ) (c : Chain State Store E), Ready p B T c → wholeOf p B c.cur.params ∈ safeWhole logLik R Ts (N + n) →
      HookedLaw p.cfg b s Act.skip Act.skip (wholeDraws p B) (wholeLaw p B)
        (fun c' => Ready p B c'.temp c' ∧ wholeOf p B c'.cur.params ∈ safeWhole logLik R Ts N) n c = 1
  | 0, c, hc, hv => by
    rw [HookedLaw, if_pos ⟨by rw [hc.temp]; exact hc, hv⟩]
  | n + 1, c, hc, hv => by
    obtain ⟨-, -, -, hGm, hGr, hdr⟩ := whole_kernel h one_ne_zero R
    have hK : ∀ T ∈ Ts, Measurable (wholeK logLik R T) := fun T hT => (whole_kernel h (hTs T hT) R).1
    have hr : ∀ T ∈ Ts, Alike SameWhole (wholeK logLik R T) := fun T hT => (whole_kernel h (hTs T hT) R).2.2.1
    have hf := whole_follows (E := E) h hpn (hTs T hT) (b := b) hs R
    have hin : wholeOf p B c.cur.params ∈ wholeFine R := safe_sub _ hv
    obtain ⟨V, h1, -⟩ := step_value (hf.law c hc hin) (hf.again c hc hin) (W := safeWhole logLik R Ts (N + n))
      (safe_meas hK hGm (N + n)) (safe_invariant hK hr hGm hGr (N + n)) (hv.2 T hT) (g := fun _ => 1) measurable_const (fun _ _ _ => rfl)
    rw [hooked_steps]
    refine Eq.trans (lintegral_congr_ae (g := fun _ => 1) ?_) (by rw [lintegral_one, measure_univ])
    filter_upwards [h1] with ω hω
    obtain ⟨c', e1, e2, -, e4⟩ := hω
    have e : hookedStep p B b s Act.skip Act.skip c ω = some c' := e1
    rw [e]
    exact safe_run h hpn hTs R hT hs N n c' e2 e4

end BB.Lemmas

import Verif.Spec.IidTape
import Verif.Lemmas.TransD
import Verif.Lemmas.RowLaw
import Mathlib.Logic.Equiv.Fin.Basic

/-!
# Programs on tapes of independent draws
-/

namespace BB.Lemmas

open BB Spec MeasureTheory ProbabilityTheory

/-! ### draws -/

theorem draw_n_meas : Measurable Draw.n :=
  measurable_fst.comp (comap_measurable fun d : Draw => (d.n, d.z, d.u))

theorem draw_z_meas : Measurable Draw.z :=
  (measurable_fst.comp measurable_snd).comp (comap_measurable fun d : Draw => (d.n, d.z, d.u))

theorem draw_u_meas : Measurable Draw.u :=
  (measurable_snd.comp measurable_snd).comp (comap_measurable fun d : Draw => (d.n, d.z, d.u))

theorem drawOf_meas : Measurable drawOf := by
  rw [measurable_comap_iff]
  exact measurable_fst.prodMk ((measurable_fst.comp measurable_snd).prodMk
    (unitDraw_meas.comp (measurable_snd.comp measurable_snd)))

theorem drawLaw_prob {K : ℕ} (hK : K ≠ 0) : IsProbabilityMeasure (drawLaw K) := by
  have := uniformNat_prob hK
  exact Measure.isProbabilityMeasure_map drawOf_meas.aemeasurable

theorem drawLaw_n {K : ℕ} : (drawLaw K).map Draw.n = uniformNat K := by
  unfold drawLaw
  rw [Measure.map_map draw_n_meas drawOf_meas]
  exact Measure.map_fst_prod.trans (by simp)

theorem drawLaw_z {K : ℕ} (hK : K ≠ 0) : (drawLaw K).map Draw.z = gaussianReal 0 1 := by
  have := uniformNat_prob hK
  unfold drawLaw
  rw [Measure.map_map draw_z_meas drawOf_meas]
  have e : Draw.z ∘ drawOf = Prod.fst ∘ Prod.snd := rfl
  rw [e, ← Measure.map_map measurable_fst measurable_snd, Measure.map_snd_prod, Measure.map_smul, Measure.map_fst_prod]
  simp

theorem drawLaw_u {K : ℕ} (hK : K ≠ 0) : (drawLaw K).map Draw.u = unitLaw := by
  have := uniformNat_prob hK
  unfold drawLaw
  rw [Measure.map_map draw_u_meas drawOf_meas]
  have e : Draw.u ∘ drawOf = (fun u => (unitDraw u).u) ∘ Prod.snd ∘ Prod.snd := rfl
  rw [e, ← Measure.map_map unitDraw_meas (measurable_snd.comp measurable_snd),
    ← Measure.map_map measurable_snd measurable_snd, Measure.map_snd_prod, Measure.map_smul, Measure.map_snd_prod]
  simp only [measure_univ, one_smul]
  rw [Measure.map_congr unitDraw_ae]
  exact Measure.map_id

/-! ### tapes -/

/-- Lists of draws are measurable like tuples. -/
instance : MeasurableSpace (List Draw) := MeasurableSpace.comap List.equivSigmaTuple inferInstance

theorem list_meas {Y : Type} [MeasurableSpace Y] {f : List Draw → Y}
    (h : ∀ n, Measurable fun v : Fin n → Draw => f (List.ofFn v)) : Measurable f := by
  have h1 : Measurable fun x : Tuple Draw => f (List.ofFn x.2) := measurable_tuple h
  have h2 : f = (fun x : Tuple Draw => f (List.ofFn x.2)) ∘ List.equivSigmaTuple := by
    funext l
    exact congrArg f (List.equivSigmaTuple.symm_apply_apply l).symm
  rw [h2]
  exact h1.comp (comap_measurable _)

theorem ofFn_meas (n : ℕ) : Measurable fun v : Fin n → Draw => List.ofFn v := by
  rw [measurable_comap_iff]
  have : (List.equivSigmaTuple ∘ fun v : Fin n → Draw => List.ofFn v) = tup n := by
    funext v
    exact List.equivSigmaTuple.apply_symm_apply (tup n v)
  rw [this]
  exact measurable_mk n

/-- Some draw. -/
def noDraw : Draw := ⟨0, 0, 0, by norm_num⟩

/-- The first draw and the rest. -/
def uncons : List Draw → Draw × List Draw
  | [] => (noDraw, [])
  | d :: t => (d, t)

theorem uncons_meas : Measurable uncons := by
  refine list_meas fun n => ?_
  cases n with
  | zero =>
    have : (fun v : Fin 0 → Draw => uncons (List.ofFn v)) = fun _ => (noDraw, []) := by
      funext v
      rfl
    rw [this]
    exact measurable_const
  | succ n =>
    have : (fun v : Fin (n + 1) → Draw => uncons (List.ofFn v)) = fun v => (v 0, List.ofFn fun i => v i.succ) := by
      funext v
      rw [List.ofFn_succ]
      rfl
    rw [this]
    refine (measurable_pi_apply 0).prodMk ((ofFn_meas n).comp ?_)
    exact measurable_pi_lambda _ fun i => measurable_pi_apply _

/-- The law of a list of `N` draws. -/
noncomputable def iid (K N : ℕ) : Measure (List Draw) := (tapeLaw K N).map List.ofFn

theorem iid_zero {K : ℕ} {F : List Draw → ENNReal} (hF : Measurable F) : ∫⁻ t, F t ∂iid K 0 = F [] := by
  unfold iid tapeLaw
  rw [lintegral_map hF (ofFn_meas 0)]
  simp

theorem iid_prob {K : ℕ} (hK : K ≠ 0) (N : ℕ) : IsProbabilityMeasure (iid K N) := by
  have := drawLaw_prob hK
  unfold iid tapeLaw
  exact Measure.isProbabilityMeasure_map (ofFn_meas N).aemeasurable

theorem iid_succ {K : ℕ} (hK : K ≠ 0) (N : ℕ) {H : Draw × List Draw → ENNReal} (hH : Measurable H) :
    ∫⁻ t, H (uncons t) ∂iid K (N + 1) = ∫⁻ d, ∫⁻ t, H (d, t) ∂iid K N ∂drawLaw K := by
  have := drawLaw_prob hK
  have h1 : ∀ d, ∫⁻ t, H (d, t) ∂iid K N = ∫⁻ v, H (d, List.ofFn v) ∂tapeLaw K N := by
    intro d
    have hm : Measurable fun t => H (d, t) := hH.comp (by fun_prop)
    unfold iid
    exact lintegral_map hm (ofFn_meas N)
  simp only [h1]
  have h3 : ∫⁻ t, H (uncons t) ∂iid K (N + 1) = ∫⁻ v, H (uncons (List.ofFn v)) ∂tapeLaw K (N + 1) :=
    lintegral_map (f := fun t => H (uncons t)) (hH.comp uncons_meas) (ofFn_meas (N + 1))
  rw [h3]
  unfold tapeLaw
  have hp := (measurePreserving_piFinSuccAbove (fun _ : Fin (N + 1) => drawLaw K) 0)
  have hm : Measurable fun z : Draw × (Fin N → Draw) => H (z.1, List.ofFn z.2) :=
    hH.comp (measurable_fst.prodMk ((ofFn_meas N).comp measurable_snd))
  have h2 := hp.lintegral_comp hm
  rw [lintegral_prod _ hm.aemeasurable] at h2
  refine Eq.trans (lintegral_congr fun v => ?_) h2
  rw [List.ofFn_succ]
  rfl

/-! ### programs -/

/-- A program that uses draws and cannot fail. -/
def V (α : Type) : Type := List Draw → α × List Draw

namespace V

variable {α β Ξ : Type}

/-- The next draw. -/
def draw : V Draw := uncons

/-- A program that draws nothing. -/
def ret (a : α) : V α := fun t => (a, t)

/-- One program after the other. -/
def andThen (m : V α) (f : α → V β) : V β := fun t => f (m t).1 (m t).2

/-- The program depends measurably on a parameter. -/
def Meas [MeasurableSpace Ξ] [MeasurableSpace α] (f : Ξ → V α) : Prop :=
  Measurable fun z : Ξ × List Draw => f z.1 z.2

variable [MeasurableSpace Ξ] [MeasurableSpace α] [MeasurableSpace β]

theorem Meas.draw : Meas fun _ : Ξ => V.draw := uncons_meas.comp measurable_snd

theorem Meas.ret {f : Ξ → α} (hf : Measurable f) : Meas fun x => V.ret (f x) :=
  (hf.comp measurable_fst).prodMk measurable_snd

theorem Meas.andThen {f : Ξ → V α} {g : Ξ → α → V β} (hf : Meas f) (hg : Meas fun z : Ξ × α => g z.1 z.2) :
    Meas fun x => V.andThen (f x) (g x) := by
  have h : Measurable fun z : Ξ × List Draw => ((z.1, (f z.1 z.2).1), (f z.1 z.2).2) :=
    (measurable_fst.prodMk (measurable_fst.comp hf)).prodMk (measurable_snd.comp hf)
  exact Measurable.comp hg h

theorem Meas.comp {Ξ' : Type} [MeasurableSpace Ξ'] {f : Ξ → V α} (hf : Meas f) {g : Ξ' → Ξ} (hg : Measurable g) :
    Meas fun x => f (g x) :=
  Measurable.comp hf ((hg.comp measurable_fst).prodMk measurable_snd)

theorem Meas.ite {f g : Ξ → V α} {p : Ξ → Prop} [DecidablePred p] (hp : MeasurableSet {x | p x}) (hf : Meas f) (hg : Meas g) :
    Meas fun x => if p x then f x else g x := by
  have : (fun z : Ξ × List Draw => (if p z.1 then f z.1 else g z.1) z.2) =
      fun z => if p z.1 then f z.1 z.2 else g z.1 z.2 := by
    funext z
    split <;> rfl
  unfold Meas
  rw [this]
  exact Measurable.ite (measurable_fst hp) hf hg

/-- What the program does on average, when the draws are independent and at most `L` of them are used: an integral of
its result, and independent draws are left. -/
def HasLaw (K : ℕ) (m : V α) (L : ℕ) (q : (α → ENNReal) → ENNReal) : Prop :=
  ∀ (N₁ : ℕ) (H : α × List Draw → ENNReal) (G : α → ENNReal), Measurable H →
    (∀ a M, N₁ ≤ M → ∫⁻ t, H (a, t) ∂iid K M = G a) → ∀ N, L + N₁ ≤ N → ∫⁻ t, H (m t) ∂iid K N = q G

theorem HasLaw.mono {K L L' : ℕ} {m : V α} {q : (α → ENNReal) → ENNReal} (h : HasLaw K m L q) (hL : L ≤ L') :
    HasLaw K m L' q := fun N₁ H G hH hG N hN => h N₁ H G hH hG N (by omega)

theorem HasLaw.ret {K : ℕ} (a : α) : HasLaw K (V.ret a) 0 fun G => G a := by
  intro N₁ H G hH hG N hN
  exact hG a N (by omega)

theorem HasLaw.draw {K : ℕ} (hK : K ≠ 0) : HasLaw K V.draw 1 fun G => ∫⁻ d, G d ∂drawLaw K := by
  intro N₁ H G hH hG N hN
  obtain ⟨N, rfl⟩ : ∃ M, N = M + 1 := ⟨N - 1, by omega⟩
  refine (iid_succ hK N hH).trans (lintegral_congr fun d => hG d N (by omega))

theorem HasLaw.andThen {K L L' : ℕ} {m : V α} {f : α → V β} {q : (α → ENNReal) → ENNReal}
    {r : α → (β → ENNReal) → ENNReal} (hm : HasLaw K m L q) (hf : ∀ a, HasLaw K (f a) L' (r a)) (hfm : Meas f) :
    HasLaw K (V.andThen m f) (L + L') fun G => q fun a => r a G := by
  intro N₁ H G hH hG N hN
  exact hm (L' + N₁) (fun z => H (f z.1 z.2)) (fun a => r a G) (Measurable.comp hH hfm)
    (fun a M hM => hf a N₁ H G hH hG M hM) N (by omega)

/-- The value functional of a program, for continuations that do not look at the draws left. -/
theorem HasLaw.value {K L : ℕ} (hK : K ≠ 0) {m : V α} {q : (α → ENNReal) → ENNReal} (h : HasLaw K m L q)
    {G : α → ENNReal} (hG : Measurable G) {N : ℕ} (hN : L ≤ N) : ∫⁻ t, G (m t).1 ∂iid K N = q G := by
  have := fun M => iid_prob hK M
  refine h 0 (fun z => G z.1) G (hG.comp measurable_fst) (fun a M _ => ?_) N (by omega)
  simp

/-- `k` draws. -/
def draws : (k : ℕ) → V (Fin k → Draw)
  | 0 => ret Fin.elim0
  | k + 1 => andThen draw fun d => andThen (draws k) fun v => ret (Fin.cons d v)

omit [MeasurableSpace Ξ] [MeasurableSpace α] [MeasurableSpace β] in
theorem cons_meas (k : ℕ) : Measurable fun z : Draw × (Fin k → Draw) => (Fin.cons z.1 z.2 : Fin (k + 1) → Draw) := by
  refine measurable_pi_lambda _ fun i => ?_
  refine Fin.cases ?_ (fun i => ?_) i
  · exact measurable_fst
  · exact (measurable_pi_apply i).comp measurable_snd

theorem draws_meas : ∀ k, Measurable (V.draws k)
  | 0 => measurable_const.prodMk measurable_id
  | k + 1 => by
    have h1 : Measurable fun t => V.draws k (uncons t).2 := (draws_meas k).comp (measurable_snd.comp uncons_meas)
    have h2 : Measurable fun t => ((Fin.cons (uncons t).1 (V.draws k (uncons t).2).1 : Fin (k + 1) → Draw),
        (V.draws k (uncons t).2).2) :=
      ((cons_meas k).comp ((measurable_fst.comp uncons_meas).prodMk (measurable_fst.comp h1))).prodMk
        (measurable_snd.comp h1)
    exact h2

theorem Meas.draws (k : ℕ) : Meas fun _ : Ξ => V.draws k := (draws_meas k).comp measurable_snd

theorem draws_law {K : ℕ} (hK : K ≠ 0) : ∀ (k : ℕ) {G : (Fin k → Draw) → ENNReal}, Measurable G →
    ∀ (N₁ : ℕ) (H : (Fin k → Draw) × List Draw → ENNReal), Measurable H →
    (∀ a M, N₁ ≤ M → ∫⁻ t, H (a, t) ∂iid K M = G a) → ∀ N, k + N₁ ≤ N →
    ∫⁻ t, H (V.draws k t) ∂iid K N = ∫⁻ v, G v ∂tapeLaw K k
  | 0, G, hG, N₁, H, hH, h, N, hN => by
    unfold tapeLaw
    have h1 := h Fin.elim0 N (by omega)
    refine (show ∫⁻ t, H (V.draws 0 t) ∂iid K N = G Fin.elim0 from h1).trans ?_
    rw [Measure.pi_of_empty _ Fin.elim0, lintegral_dirac' _ hG]
  | k + 1, G, hG, N₁, H, hH, h, N, hN => by
    have := drawLaw_prob hK
    have hcm := cons_meas k
    have h1 := HasLaw.draw hK (k + N₁)
      (fun z => H (Fin.cons z.1 (V.draws k z.2).1, (V.draws k z.2).2))
      (fun d => ∫⁻ v, G (Fin.cons d v) ∂tapeLaw K k) (by
        refine hH.comp (Measurable.prodMk (hcm.comp (measurable_fst.prodMk ?_)) ?_)
        · exact measurable_fst.comp ((draws_meas k).comp measurable_snd)
        · exact measurable_snd.comp ((draws_meas k).comp measurable_snd))
      (fun d M hM => draws_law hK k (G := fun v => G (Fin.cons d v)) (hG.comp (hcm.comp (measurable_const.prodMk measurable_id)))
        N₁ (fun z => H (Fin.cons d z.1, z.2))
        (hH.comp ((hcm.comp (measurable_const.prodMk measurable_fst)).prodMk measurable_snd))
        (fun a M hM => h (Fin.cons d a) M hM) M hM) N (by omega)
    refine Eq.trans (show ∫⁻ t, H (V.draws (k + 1) t) ∂iid K N = _ from h1) ?_
    unfold tapeLaw
    have hp := (measurePreserving_piFinSuccAbove (fun _ : Fin (k + 1) => drawLaw K) 0).symm
    have h2 := hp.lintegral_comp hG
    rw [← h2]
    refine Eq.symm (Eq.trans (lintegral_congr fun z => ?_) (lintegral_prod _ (hG.comp hcm).aemeasurable))
    refine congrArg G (funext fun i => ?_)
    refine Fin.cases ?_ (fun i => ?_) i
    · rfl
    · simp [MeasurableEquiv.piFinSuccAbove, Fin.insertNthEquiv]

theorem HasLaw.draws {K : ℕ} (hK : K ≠ 0) (k : ℕ) : HasLaw K (V.draws k) k fun G => ∫⁻ v, G v ∂tapeLaw K k := by
  intro N₁ H G hH hG N hN
  refine draws_law hK k ?_ N₁ H hH hG N hN
  have : G = fun a => ∫⁻ t, H (a, t) ∂iid K N₁ := by
    funext a
    exact (hG a N₁ le_rfl).symm
  rw [this]
  have := iid_prob hK N₁
  exact Measurable.lintegral_prod_right' hH

/-- The program uses at most `L` draws. -/
def Short (m : V α) (L : ℕ) : Prop := ∀ t, ∃ k ≤ L, (m t).2 = t.drop k

omit [MeasurableSpace α] in
theorem Short.ret (a : α) : Short (V.ret a) 0 := fun t => ⟨0, le_rfl, rfl⟩

theorem Short.draw : Short V.draw 1 := fun t => ⟨1, le_rfl, by cases t <;> rfl⟩

omit [MeasurableSpace α] [MeasurableSpace β] in
theorem Short.andThen {m : V α} {f : α → V β} {L L' : ℕ} (hm : Short m L) (hf : ∀ a, Short (f a) L') :
    Short (V.andThen m f) (L + L') := by
  intro t
  obtain ⟨k, hk, h⟩ := hm t
  obtain ⟨k', hk', h'⟩ := hf (m t).1 (m t).2
  refine ⟨k + k', by omega, ?_⟩
  rw [h] at h'
  rw [← List.drop_drop, ← h']
  unfold V.andThen
  rw [h]

omit [MeasurableSpace α] in
theorem Short.mono {m : V α} {L L' : ℕ} (h : Short m L) (hL : L ≤ L') : Short m L' := fun t => by
  obtain ⟨k, hk, h⟩ := h t
  exact ⟨k, by omega, h⟩

theorem Short.draws : ∀ k, Short (V.draws k) k
  | 0 => Short.ret _
  | k + 1 => ((Short.draw).andThen fun d => ((Short.draws k).andThen fun v => Short.ret _)).mono (by omega)

end V

end BB.Lemmas

import Verif.Lemmas.Samplers
import Verif.Lemmas.StateChain
import Verif.Props.C37_C38_Tempering

/-!
# C39: swaps permute the temperatures
-/

namespace BB.Props

open BB BB.Lemmas BB.Spec

variable {S σ E : Type}

/-- The temperatures of the chains. -/
def temps (s : Samp S σ E) : List ℝ := s.chains.map (·.temp)

/-- The registered functions do not change the temperature of a chain. -/
def KeepTemp (d : SamplerDef S σ E) : Prop :=
  (∀ f ∈ d.extraBegin, Act.Keeps f fun c c' => c'.temp = c.temp) ∧
    ∀ f ∈ d.extraEnd, Act.Keeps f fun c c' => c'.temp = c.temp

theorem forall₂_temp {l l' : List (Chain S σ E)}
    (h : List.Forall₂ (fun c c' : Chain S σ E => c'.temp = c.temp) l l') :
    l'.map (·.temp) = l.map (·.temp) := by
  induction h with
  | nil => rfl
  | cons h _ ih => rw [List.map_cons, List.map_cons, h, ih]

/-- C39: a run of parallel tempering, however it ends and after any number of batches, leaves the
chains with a permutation of the temperatures they had before. -/
theorem C39_permutation (cfg : ChainCfg S σ) (fr tmax : ℝ) (par : Par) (d : SamplerDef S σ E)
    (hd : KeepTemp d) (sw n b sv : ℤ) (fuel : ℕ) (s : Samp S σ E) (t : List Draw) :
    (temps (ptRun cfg par (tempering cfg fr tmax d) sw n b sv fuel s t).2.1).Perm (temps s) := by
  have h : ∀ k b, Act.Keeps ((tempering cfg fr tmax d).advanceChain cfg par k b sv)
      (fun s s' : Samp S σ E => (temps s').Perm (temps s)) := by
    intro k b
    refine advanceChain_keeps cfg (fun _ _ _ h1 h2 => h2.trans h1) (fun _ => List.Perm.refl _) ?_ ?_
    · intro s t
      have := samp_each_keeps (par := par) (R := fun c c' : Chain S σ E => c'.temp = c.temp)
        (f := Chain.advance cfg b sv (tempering cfg fr tmax d).beginIteration
          (tempering cfg fr tmax d).endIteration k.toNat) (fun _ => rfl)
        (fun c w t => advance_temp cfg
          (begin_keeps_eq (·.temp) (d := tempering cfg fr tmax d) (skip_keeps fun _ => rfl) hd.1)
          (end_keeps_eq (·.temp) (d := tempering cfg fr tmax d) (skip_keeps fun _ => rfl) hd.2)
          _ { c with world := w } t) s t
      unfold temps
      rw [forall₂_temp this]
    · intro s t
      exact (ptEndAdvance_keeps cfg s t).2.1
  exact ptRun_keeps cfg (R := fun s s' : Samp S σ E => (temps s').Perm (temps s))
    (fun _ => List.Perm.refl _) (fun _ _ _ h1 h2 => h2.trans h1) h fuel s t

/-- C39: the number of chains with a given temperature, in particular of those that sample from the
posterior, stays the same. -/
theorem C39_count (cfg : ChainCfg S σ) (fr tmax : ℝ) (par : Par) (d : SamplerDef S σ E)
    (hd : KeepTemp d) (sw n b sv : ℤ) (fuel : ℕ) (s : Samp S σ E) (t : List Draw) (T : ℝ) :
    (ptRun cfg par (tempering cfg fr tmax d) sw n b sv fuel s t).2.1.chains.countP
      (fun c => decide (c.temp = T)) = s.chains.countP (fun c => decide (c.temp = T)) := by
  have := (C39_permutation cfg fr tmax par d hd sw n b sv fuel s t).countP_eq
    (fun x => decide (x = T))
  simpa [temps, List.countP_map, Function.comp_def] using this

/-! ### The temperature stored in the states -/

/-- `tau` is an observation of the states, set by the setter of the temperature and unaffected by
everything else. -/
structure TempObs (cfg : ChainCfg S σ) (tau : S → ℝ) : Prop where
  set : ∀ s x, tau (cfg.setTemp s x) = x
  perturb : ∀ name f, (name, f) ∈ cfg.perturbs → ∀ s t new lpr t',
    f s t = (.ok (new, lpr), t') → tau new = tau s
  llr : ∀ a b T, tau (cfg.llr a b T).2.1 = tau a ∧ tau (cfg.llr a b T).2.2 = tau b

/-- The states of all chains carry the temperature of their chain. -/
def Carried (tau : S → ℝ) (s : Samp S σ E) : Prop := ∀ c ∈ s.chains, tau c.cur = c.temp

theorem TempObs.preserves {cfg : ChainCfg S σ} {tau : S → ℝ} (h : TempObs cfg tau) (T : ℝ) :
    Preserves cfg (fun s => tau s = T) :=
  ⟨fun name f hf s t new lpr t' hs he => (h.perturb name f hf s t new lpr t' he).trans hs,
    fun a b T' ha hb => ⟨(h.llr a b T').1.trans ha, (h.llr a b T').2.trans hb⟩⟩

theorem forall_set_set {α : Type} {I : α → Prop} {l : List α} {i j : ℕ} {a b : α}
    (h : ∀ x ∈ l, I x) (ha : I a) (hb : I b) : ∀ x ∈ (l.set i a).set j b, I x := by
  intro x hx
  rcases List.mem_or_eq_of_mem_set hx with hx | rfl
  · rcases List.mem_or_eq_of_mem_set hx with hx | rfl
    · exact h x hx
    · exact ha
  · exact hb

theorem ptSwap_carried {cfg : ChainCfg S σ} {tau : S → ℝ} (h : TempObs cfg tau) (i j : ℕ) :
    Act.Keeps (ptSwap cfg i j : Act (Samp S σ E) Unit)
      (fun s s' => Carried tau s → Carried tau s') := by
  classical
  intro s t hs
  unfold ptSwap
  match hi : s.chains[i]?, hj : s.chains[j]? with
  | none, _ => exact hs
  | some c1, none => exact hs
  | some c1, some c2 =>
    simp only
    have h1 := (h.llr c1.cur c2.cur c1.temp).1.trans (hs c1 (List.mem_of_getElem? hi))
    have h2 := (h.llr c1.cur c2.cur c1.temp).2.trans (hs c2 (List.mem_of_getElem? hj))
    generalize cfg.llr c1.cur c2.cur c1.temp = x at h1 h2 ⊢
    obtain ⟨r, s1, s2⟩ := x
    simp only at h1 h2 ⊢
    have hq : ∀ c ∈ (s.chains.set i { c1 with cur := s1 }).set j { c2 with cur := s2 },
        tau c.cur = c.temp :=
      forall_set_set (I := fun c : Chain S σ E => tau c.cur = c.temp) hs h1 h2
    unfold ptDecide
    match r with
    | .error e => exact hq
    | .ok r =>
      simp only
      split
      · exact hq
      · match t with
        | [] => exact hq
        | d :: t1 =>
          simp only
          split
          · exact hq
          · split
            · exact forall_set_set (I := fun c : Chain S σ E => tau c.cur = c.temp) hs
                (h.set _ _) (h.set _ _)
            · exact hq

/-- C39: if each state carries the temperature of its chain at the beginning of a run of parallel
tempering, it does so at the end, however the run ends and whatever the number of batches and swaps. -/
theorem C39_carried (cfg : ChainCfg S σ) (tau : S → ℝ) (ho : TempObs cfg tau) (fr tmax : ℝ) (par : Par)
    (d : SamplerDef S σ E) (hd : KeepTemp d)
    (hb : ∀ f ∈ d.extraBegin, Act.Keeps f fun c c' => tau c'.cur = tau c.cur)
    (he : ∀ f ∈ d.extraEnd, Act.Keeps f fun c c' => tau c'.cur = tau c.cur)
    (sw n b sv : ℤ) (fuel : ℕ) (s : Samp S σ E) (t : List Draw) (hs : Carried tau s) :
    Carried tau (ptRun cfg par (tempering cfg fr tmax d) sw n b sv fuel s t).2.1 := by
  have h : ∀ k b, Act.Keeps ((tempering cfg fr tmax d).advanceChain cfg par k b sv)
      (fun s s' : Samp S σ E => Carried tau s → Carried tau s') := by
    intro k b
    refine advanceChain_keeps cfg (fun _ _ _ h1 h2 h => h2 (h1 h)) (fun _ h => h) ?_ ?_
    · intro s t hs
      have := samp_each_keeps (par := par)
        (R := fun c c' : Chain S σ E => tau c.cur = c.temp → tau c'.cur = c'.temp)
        (f := Chain.advance cfg b sv (tempering cfg fr tmax d).beginIteration
          (tempering cfg fr tmax d).endIteration k.toNat) (fun _ h => h)
        (fun c w t hc => ?_) s t
      · intro c' hc'
        obtain ⟨j, hj⟩ := List.mem_iff_getElem?.1 hc'
        have hlt : j < s.chains.length := by
          rw [this.length_eq]; exact (List.getElem?_eq_some_iff.1 hj).1
        obtain ⟨c1, e1, e2⟩ := forall₂_get this (k := j) (a := s.chains[j]) (by simp [hlt])
        rw [hj] at e1
        obtain rfl := Option.some.inj e1
        exact e2 (hs _ (List.getElem_mem hlt))
      · have h1 := advance_temp cfg (b := b) (s := sv)
          (begin_keeps_eq (·.temp) (d := tempering cfg fr tmax d) (skip_keeps fun _ => rfl) hd.1)
          (end_keeps_eq (·.temp) (d := tempering cfg fr tmax d) (skip_keeps fun _ => rfl) hd.2)
          k.toNat { c with world := w } t
        have hbk := begin_keeps_eq (fun c : Chain S σ E => tau c.cur) (d := tempering cfg fr tmax d)
          (skip_keeps fun _ => rfl) hb
        have hek := end_keeps_eq (fun c : Chain S σ E => tau c.cur) (d := tempering cfg fr tmax d)
          (skip_keeps fun _ => rfl) he
        have h2 := advance_P cfg (ho.preserves c.temp) (b := b) (s := sv)
          (fun c t h => (hbk c t).trans h) (fun c t h => (hek c t).trans h)
          k.toNat { c with world := w } t hc
        simp only at h1 h2
        rw [h2, h1]
    · intro s t
      change Carried tau s → Carried tau (ptSwaps cfg s.chains.length s t).2.1
      have key : ∀ k, Act.Keeps (ptSwaps cfg k : Act (Samp S σ E) Unit)
          (fun s s' => Carried tau s → Carried tau s') := by
        intro k
        induction k with
        | zero => exact skip_keeps fun _ h => h
        | succ k ih =>
          refine Act.Keeps.bind (fun _ _ _ h1 h2 h => h2 (h1 h)) ?_ fun _ => ih
          intro s t
          rw [ptSwapRandom_run]
          match pickTwo s.chains.length t with
          | (.error e, t1) => exact fun h => h
          | (.ok (i, j), t1) => exact ptSwap_carried ho i j s t1
      exact key _ s t
  exact ptRun_keeps cfg (R := fun s s' : Samp S σ E => Carried tau s → Carried tau s')
    (fun _ h => h) (fun _ _ _ h1 h2 h => h2 (h1 h)) h fuel s t hs

theorem assignTemps_ok {cfg : ChainCfg S σ} {cs cs' : List (Chain S σ E)} {xs : List ℝ}
    (h : assignTemps cfg cs xs = .ok cs') :
    cs' = List.zipWith (fun c x => c.setTemp cfg x) cs xs ∧ cs.length ≤ xs.length := by
  induction cs generalizing xs cs' with
  | nil =>
    simp only [assignTemps, Except.ok.injEq] at h
    subst h
    simp
  | cons c cs ih =>
    cases xs with
    | nil => simp [assignTemps] at h
    | cons x xs =>
      rw [assignTemps] at h
      match hr : assignTemps cfg cs xs with
      | .error e => rw [hr] at h; simp at h
      | .ok cs1 =>
        rw [hr] at h
        simp only [Except.ok.injEq] at h
        subst h
        obtain ⟨rfl, h2⟩ := ih hr
        exact ⟨by simp, by simpa using h2⟩

/-- The initialization of parallel tempering makes each state carry the temperature of its chain,
whatever was there before. -/
theorem C39_initial (cfg : ChainCfg S σ) (tau : S → ℝ) (ho : TempObs cfg tau) (fr tmax : ℝ)
    (s s' : Samp S σ E) (t t' : List Draw) (h : ptInit cfg fr tmax s t = (.ok (), s', t')) :
    Carried tau s' := by
  unfold ptInit at h
  match hl : ptLadder s.chains.length fr tmax with
  | .error e => rw [hl] at h; simp at h
  | .ok xs =>
    rw [hl] at h
    simp only at h
    match ha : assignTemps cfg s.chains xs with
    | .error e => rw [ha] at h; simp at h
    | .ok cs =>
      rw [ha] at h
      simp only [Prod.mk.injEq] at h
      obtain ⟨-, rfl, -⟩ := h
      obtain ⟨rfl, -⟩ := assignTemps_ok ha
      intro c hc
      simp only at hc
      obtain ⟨k, hk⟩ := List.mem_iff_getElem?.1 hc
      rw [List.getElem?_zipWith] at hk
      match h1 : s.chains[k]?, h2 : xs[k]? with
      | some a, some x =>
        rw [h1, h2] at hk
        simp only [Option.some.injEq] at hk
        subst hk
        exact ho.set _ _
      | none, _ => rw [h1] at hk; simp at hk
      | some a, none => rw [h1, h2] at hk; simp at hk

/-- The library's states satisfy the hypotheses, if the perturbations do not touch the temperature. -/
theorem C39_states (kind : LLKind State) (tf : List (Target × Fwd))
    (perturbs : List (String × (State → M (State × PyF)))) (weights : List ℝ)
    (spaces : Option (List (String × Bool))) (saveDpred : Bool)
    (hp : ∀ name f, (name, f) ∈ perturbs → ∀ s t new lpr t', f s t = (.ok (new, lpr), t') →
      new.temperature = s.temperature) :
    TempObs (stateCfg kind tf perturbs weights spaces saveDpred) State.temperature where
  set := fun _ _ => rfl
  perturb := hp
  llr := fun a b T => by
    obtain ⟨h1, h2⟩ := llr_step kind tf perturbs weights spaces saveDpred a b T
    exact ⟨h1.temperature, h2.temperature⟩

/-! ### Instances -/

/-- A configuration whose states carry a temperature. -/
noncomputable def exCfgT : ChainCfg (ℤ × ℝ) (List ℤ) where
  perturbs := [("plus", fun s t => (.ok ((s.1 + 1, s.2), .fin 0), t))]
  weights := [1]
  llr := fun a b T => (.ok (.fin ((b.1 - a.1) / T)), a, b)
  stats := fun _ => .ok []
  setTemp := fun s x => (s.1, x)
  save := fun s l => (.ok (), l ++ [s.1])

theorem exObs : TempObs exCfgT (fun s => s.2) where
  set := fun _ _ => rfl
  perturb := by
    intro name f hf s t new lpr t' h
    simp only [exCfgT, List.mem_singleton] at hf
    obtain ⟨-, rfl⟩ := Prod.mk.inj hf
    simp only [Prod.mk.injEq, Except.ok.injEq] at h
    obtain ⟨⟨rfl, -⟩, -⟩ := h
    rfl
  llr := fun _ _ _ => ⟨rfl, rfl⟩

/-- A swap that is accepted: the chains at temperatures 1 and 3 exchange them, and so do their
states. -/
noncomputable def exSampT : Samp (ℤ × ℝ) (List ℤ) Unit :=
  ⟨[Chain.init (5, 1) [] 1 (), Chain.init (7, 3) [] 3 ()], (), 0⟩

theorem exSwapT : (ptSwap exCfgT 0 1 exSampT [half]).1 = .ok () ∧
    temps (ptSwap exCfgT 0 1 exSampT [half]).2.1 = [3, 1] ∧
    Carried (fun s => s.2) (ptSwap exCfgT 0 1 exSampT [half]).2.1 := by
  classical
  have hlog : Real.log (1 / 2) < 0 := Real.log_neg (by norm_num) (by norm_num)
  have hacc : (swapLogProb 1 3 (.fin ((7 - 5) / 1))).gtFin (Real.log (1 / 2)) := by
    simp only [swapLogProb, PyF.mulFin, PyF.gtFin]
    norm_num
    linarith
  have : ptSwap exCfgT 0 1 exSampT [half] = (.ok (), { exSampT with chains :=
      [Chain.setTemp exCfgT (Chain.init (5, 1) [] 1 ()) 3,
       Chain.setTemp exCfgT (Chain.init (7, 3) [] 3 ()) 1] }, []) := by
    have hu : ¬ (half.u ≤ 0) := by norm_num [half, exDraw]
    have h0 : ¬ ((1 : ℝ) = 0 ∨ (3 : ℝ) = 0) := by norm_num
    have e1 : (exCfgT.llr (5, 1) (7, 3) 1).1 = .ok (.fin ((7 - 5) / 1)) := by
      norm_num [exCfgT]
    unfold ptSwap
    simp only [exSampT, List.getElem?_cons_zero, List.getElem?_cons_succ, Chain.init]
    unfold ptDecide
    rw [e1]
    simp only [h0, hu, if_false]
    rw [if_pos (by exact hacc)]
    rfl
  rw [this]
  refine ⟨rfl, rfl, ?_⟩
  intro c hc
  rcases List.mem_cons.1 hc with rfl | hc
  · rfl
  · rcases List.mem_cons.1 hc with rfl | hc
    · rfl
    · simp at hc

end BB.Props

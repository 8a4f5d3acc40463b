import Verif.Lemmas.Samplers
import Verif.Props.C06_C07_Saving
import Verif.Props.C36_Vanilla

/-!
# C37, C38: iterations, burn-in and thinning of parallel tempering
-/

namespace BB.Props

open BB BB.Lemmas BB.Spec

variable {S σ E : Type}

/-- The registered functions do not change the iteration counter of a chain. -/
def KeepTotal (d : SamplerDef S σ E) : Prop :=
  (∀ f ∈ d.extraBegin, Act.Keeps f fun c c' => c'.total = c.total) ∧
    ∀ f ∈ d.extraEnd, Act.Keeps f fun c c' => c'.total = c.total

theorem batch_total {cfg : ChainCfg S σ} {fr tmax : ℝ} {par : Par} {d : SamplerDef S σ E}
    (hd : KeepTotal d) {k b sv : ℤ} {s s' : Samp S σ E} {t t' : List Draw}
    {evs : List (List (Event S))} {m : ℕ} (hm : ∀ c ∈ s.chains, c.total = m)
    (h : (tempering cfg fr tmax d).advanceChain cfg par k b sv s t = (.ok evs, s', t')) :
    ∀ c ∈ s'.chains, c.total = m + k.toNat := by
  obtain ⟨h1, h2, h3⟩ := tempering_batch cfg h
  intro c hc
  obtain ⟨j, hj⟩ := List.mem_iff_getElem?.1 hc
  have hlt : j < s.chains.length := by
    rw [← h1]; exact (List.getElem?_eq_some_iff.1 hj).1
  obtain ⟨ev, c1, c', w, t1, t2, e1, e2, e3, e4⟩ := h3 j s.chains[j] (by simp [hlt])
  rw [hj] at e2
  obtain rfl := Option.some.inj e2
  rw [e3.2.1, (advance_total cfg
    (begin_keeps_eq (·.total) (d := tempering cfg fr tmax d) (skip_keeps fun _ => rfl) hd.1)
    (end_keeps_eq (·.total) (d := tempering cfg fr tmax d) (skip_keeps fun _ => rfl) hd.2) e4).1,
    hm _ (List.getElem_mem hlt)]

/-- C37 in general: chains that have made `m` iterations each will have made `max m n`. -/
theorem C37_general (cfg : ChainCfg S σ) (fr tmax : ℝ) (par : Par) (d : SamplerDef S σ E)
    (hd : KeepTotal d) (sw n b sv : ℤ) (hsw : 1 ≤ sw) (fuel : ℕ) (s s' : Samp S σ E)
    (t t' : List Draw) (evs : List (List (Event S))) (m : ℕ) (hm : ∀ c ∈ s.chains, c.total = m)
    (h : ptRun cfg par (tempering cfg fr tmax d) sw n b sv fuel s t = (.ok (some evs), s', t')) :
    ∀ c ∈ s'.chains, (c.total : ℤ) = max (m : ℤ) n := by
  induction fuel generalizing s t evs m with
  | zero => simp [ptRun] at h
  | succ fuel ih =>
    rw [ptRun_succ] at h
    match hc : s.chains.head? with
    | none => rw [hc] at h; simp at h
    | some c0 =>
      rw [hc] at h
      simp only at h
      have hc0 : c0.total = m := hm c0 (List.mem_of_mem_head? hc)
      rw [hc0] at h
      match ha : (tempering cfg fr tmax d).advanceChain cfg par (ptIterations sw n m)
          (ptBurnin sw b m) sv s t with
      | (.error e, s1, t1) => rw [ha] at h; simp at h
      | (.ok evs1, s1, t1) =>
        rw [ha] at h
        simp only at h
        have hs1 := batch_total hd hm ha
        by_cases hn : n ≤ m
        · rw [if_pos hn] at h
          simp only [Prod.mk.injEq, Except.ok.injEq, Option.some.injEq] at h
          obtain ⟨rfl, rfl, rfl⟩ := h
          intro c hc
          rw [hs1 c hc]
          unfold ptIterations
          omega
        · rw [if_neg hn] at h
          match hr : ptRun cfg par (tempering cfg fr tmax d) sw n b sv fuel s1 t1 with
          | (.error e, s2, t2) => rw [hr] at h; simp at h
          | (.ok none, s2, t2) => rw [hr] at h; simp at h
          | (.ok (some evs2), s2, t2) =>
            rw [hr] at h
            simp only [Prod.mk.injEq, Except.ok.injEq, Option.some.injEq] at h
            obtain ⟨rfl, rfl, rfl⟩ := h
            intro c hc
            rw [ih s1 t1 evs2 _ hs1 hr c hc]
            unfold ptIterations
            omega

/-- C37: a completed run on fresh chains makes exactly `n` iterations with each of them, for any
`swap_every ≥ 1`. -/
theorem C37_exact (cfg : ChainCfg S σ) (fr tmax : ℝ) (par : Par) (d : SamplerDef S σ E)
    (hd : KeepTotal d) (sw b sv : ℤ) (n : ℕ) (hsw : 1 ≤ sw) (fuel : ℕ) (s s' : Samp S σ E)
    (t t' : List Draw) (evs : List (List (Event S))) (hm : ∀ c ∈ s.chains, c.total = 0)
    (h : ptRun cfg par (tempering cfg fr tmax d) sw n b sv fuel s t = (.ok (some evs), s', t')) :
    ∀ c ∈ s'.chains, c.total = n := by
  intro c hc
  have := C37_general cfg fr tmax par d hd sw n b sv hsw fuel s s' t t' evs 0 hm h c hc
  omega

/-- C37, termination: the loop of `run` ends, after at most `n + 1` batches, normally or with an
exception. -/
theorem C37_terminates (cfg : ChainCfg S σ) (fr tmax : ℝ) (par : Par) (d : SamplerDef S σ E)
    (hd : KeepTotal d) (sw n b sv : ℤ) (hsw : 1 ≤ sw) (fuel : ℕ) (s : Samp S σ E)
    (t : List Draw) (m : ℕ) (hm : ∀ c ∈ s.chains, c.total = m) (hf : n - m < fuel) (hf0 : 0 < fuel) :
    (ptRun cfg par (tempering cfg fr tmax d) sw n b sv fuel s t).1 ≠ .ok none := by
  induction fuel generalizing s t m with
  | zero => omega
  | succ fuel ih =>
    rw [ptRun_succ]
    match hc : s.chains.head? with
    | none => simp
    | some c0 =>
      have hc0 : c0.total = m := hm c0 (List.mem_of_mem_head? hc)
      simp only [hc0]
      match ha : (tempering cfg fr tmax d).advanceChain cfg par (ptIterations sw n m)
          (ptBurnin sw b m) sv s t with
      | (.error e, s1, t1) => simp
      | (.ok evs1, s1, t1) =>
        simp only
        have hs1 := batch_total hd hm ha
        by_cases hn : n ≤ m
        · rw [if_pos hn]; simp
        · rw [if_neg hn]
          have := ih s1 t1 _ hs1 (by unfold ptIterations; push_cast; omega) (by omega)
          match hr : ptRun cfg par (tempering cfg fr tmax d) sw n b sv fuel s1 t1 with
          | (.error e, s2, t2) => simp
          | (.ok none, s2, t2) => rw [hr] at this; simp at this
          | (.ok (some evs2), s2, t2) => simp

/-- The number of batches allowed for is irrelevant once the loop has ended. -/
theorem C37_fuel (cfg : ChainCfg S σ) (par : Par) (d : SamplerDef S σ E) (sw n b sv : ℤ) (fuel : ℕ)
    (s : Samp S σ E) (t : List Draw) (h : (ptRun cfg par d sw n b sv fuel s t).1 ≠ .ok none) :
    ptRun cfg par d sw n b sv (fuel + 1) s t = ptRun cfg par d sw n b sv fuel s t := by
  induction fuel generalizing s t with
  | zero => simp [ptRun] at h
  | succ fuel ih =>
    rw [ptRun_succ] at h
    rw [ptRun_succ, ptRun_succ]
    match hc : s.chains.head? with
    | none => rfl
    | some c0 =>
      simp only [hc] at h ⊢
      match ha : d.advanceChain cfg par (ptIterations sw n c0.total) (ptBurnin sw b c0.total) sv s t with
      | (.error e, s1, t1) => rfl
      | (.ok evs1, s1, t1) =>
        simp only [ha] at h ⊢
        by_cases hn : n ≤ (c0.total : ℤ)
        · rw [if_pos hn, if_pos hn]
        · rw [if_neg hn] at h
          rw [if_neg hn, if_neg hn]
          rw [ih s1 t1 ?_]
          intro hcon
          match hr : ptRun cfg par d sw n b sv fuel s1 t1 with
          | (.error e, s2, t2) => rw [hr] at hcon; simp at hcon
          | (.ok none, s2, t2) => rw [hr] at h; simp at h
          | (.ok (some evs2), s2, t2) => rw [hr] at hcon; simp at hcon

/-- Without the hypothesis `swap_every ≥ 1` the run never ends normally (unless there is nothing left
to do). -/
theorem C37_swap_every_needed (cfg : ChainCfg S σ) (fr tmax : ℝ) (par : Par) (d : SamplerDef S σ E)
    (hd : KeepTotal d) (sw n b sv : ℤ) (hsw : sw ≤ 0) (fuel : ℕ) (s : Samp S σ E) (t : List Draw)
    (m : ℕ) (hm : ∀ c ∈ s.chains, c.total = m) (hn : m < n) (evs : List (List (Event S))) :
    (ptRun cfg par (tempering cfg fr tmax d) sw n b sv fuel s t).1 ≠ .ok (some evs) := by
  induction fuel generalizing s t evs with
  | zero => simp [ptRun]
  | succ fuel ih =>
    rw [ptRun_succ]
    match hc : s.chains.head? with
    | none => simp
    | some c0 =>
      have hc0 : c0.total = m := hm c0 (List.mem_of_mem_head? hc)
      simp only [hc0]
      match ha : (tempering cfg fr tmax d).advanceChain cfg par (ptIterations sw n m)
          (ptBurnin sw b m) sv s t with
      | (.error e, s1, t1) => simp
      | (.ok evs1, s1, t1) =>
        simp only
        have hs1 := batch_total hd hm ha
        have e0 : (ptIterations sw n m).toNat = 0 := by unfold ptIterations; omega
        rw [e0] at hs1
        rw [if_neg (by omega)]
        match hr : ptRun cfg par (tempering cfg fr tmax d) sw n b sv fuel s1 t1 with
        | (.error e, s2, t2) => simp
        | (.ok none, s2, t2) => simp
        | (.ok (some evs2), s2, t2) =>
          have := ih s1 t1 hs1 evs2
          rw [hr] at this
          simp at this

/-! ### Burn-in and thinning -/

theorem dueStates_eq (b sv : ℤ) (i : ℕ) (l : List (Event S)) :
    dueStates b sv i l = statesBy (Due b sv) i l := by
  induction l generalizing i with
  | nil => rfl
  | cons ev l ih => rw [dueStates, statesBy, ih]

theorem statesBy_append (P : ℕ → Prop) (i : ℕ) (l1 l2 : List (Event S)) :
    statesBy P i (l1 ++ l2) = statesBy P i l1 ++ statesBy P (i + l1.length) l2 := by
  classical
  induction l1 generalizing i with
  | nil => simp [statesBy]
  | cons ev l1 ih =>
    rw [List.cons_append, statesBy, statesBy, ih, List.append_assoc, List.length_cons]
    congr 3
    omega

theorem statesBy_congr (P Q : ℕ → Prop) (i : ℕ) (l : List (Event S))
    (h : ∀ j, i ≤ j → j < i + l.length → (P j ↔ Q j)) :
    statesBy P i l = statesBy Q i l := by
  classical
  induction l generalizing i with
  | nil => simp [statesBy]
  | cons ev l ih =>
    rw [statesBy, statesBy, ih (i + 1) fun j h1 h2 => h j (by omega) (by rw [List.length_cons]; omega)]
    congr 1
    have := h i le_rfl (by rw [List.length_cons]; omega)
    simp only [this]

/-- The registered functions do not interfere with the saving of samples. -/
def QuietHooks (d : SamplerDef S σ E) : Prop :=
  (∀ f ∈ d.extraBegin, BeginHook f) ∧ ∀ f ∈ d.extraEnd, EndHook f

theorem QuietHooks.begin {d : SamplerDef S σ E} (h : QuietHooks d) (h0 : BeginHook d.onBegin) :
    BeginHook d.beginIteration :=
  begin_keeps (R := fun c c' => c'.saved = c.saved ∧ c'.total = c.total ∧ c'.saveNow = c.saveNow)
    (fun _ => ⟨rfl, rfl, rfl⟩)
    (fun _ _ _ h1 h2 => ⟨h2.1.trans h1.1, h2.2.1.trans h1.2.1, h2.2.2.trans h1.2.2⟩) h0 h.1

theorem QuietHooks.end {d : SamplerDef S σ E} (h : QuietHooks d) (h0 : EndHook d.onEnd) :
    EndHook d.endIteration :=
  end_keeps (R := fun c c' => c'.saved = c.saved ∧ c'.total = c.total)
    (fun _ => ⟨rfl, rfl⟩) (fun _ _ _ h1 h2 => ⟨h2.1.trans h1.1, h2.2.trans h1.2⟩) h0 h.2

theorem QuietHooks.total {d : SamplerDef S σ E} (h : QuietHooks d) : KeepTotal d :=
  ⟨fun f hf c t => (h.1 f hf c t).2.1, fun f hf c t => (h.2 f hf c t).2⟩

/-- What one batch saves. -/
theorem batch_saved {α : Type} {cfg : ChainCfg S σ} (proj : σ → List α) (vals : S → List α)
    (hsave : ∀ s st st', cfg.save s st = (.ok (), st') → proj st' = proj st ++ vals s)
    {fr tmax : ℝ} {par : Par} {d : SamplerDef S σ E}
    (hd : QuietHooks d) {k b sv : ℤ} {s s' : Samp S σ E} {t t' : List Draw}
    {evs : List (List (Event S))} {m : ℕ} (hm : ∀ c ∈ s.chains, c.total = m)
    (h : (tempering cfg fr tmax d).advanceChain cfg par k b sv s t = (.ok evs, s', t'))
    (j : ℕ) (c : Chain S σ E) (hj : s.chains[j]? = some c) :
    ∃ (ev : List (Event S)) (c' : Chain S σ E), evs[j]? = some ev ∧ s'.chains[j]? = some c' ∧
      ev.length = k.toNat ∧
      proj c'.saved = proj c.saved ++ (dueStates b sv (m + 1) ev).flatMap vals := by
  obtain ⟨h1, h2, h3⟩ := tempering_batch cfg h
  obtain ⟨ev, c1, c', w, t1, t2, e1, e2, e3, e4⟩ := h3 j c hj
  have hb : BeginHook (tempering cfg fr tmax d).beginIteration :=
    QuietHooks.begin (d := tempering cfg fr tmax d) hd (skip_begin)
  have he : EndHook (tempering cfg fr tmax d).endIteration :=
    QuietHooks.end (d := tempering cfg fr tmax d) hd (skip_end)
  have htot : c.total = m := hm c (List.mem_of_getElem? hj)
  have hlen := (advance_total cfg (fun c t => (hb c t).2.1) (fun c t => (he c t).2) e4).2
  refine ⟨ev, c', e1, e2, hlen, ?_⟩
  have := C06_C07_saved cfg proj vals hsave b sv _ _ hb he _ _ _ _ _ _ e4
  simp only [htot] at this
  rw [e3.1, this]

/-- What parallel tempering saves, for all `burnin_iterations`, `save_every`, `swap_every ≥ 1`: the
states at the saving iterations of the *batches*, each of which has a burn-in of its own, counted from
the creation of the chain and not from the beginning of the batch. -/
theorem C38_actual {α : Type} (cfg : ChainCfg S σ) (proj : σ → List α) (vals : S → List α)
    (hsave : ∀ s st st', cfg.save s st = (.ok (), st') → proj st' = proj st ++ vals s)
    (fr tmax : ℝ) (par : Par) (d : SamplerDef S σ E)
    (hd : QuietHooks d) (sw n b sv : ℤ) (hsw : 1 ≤ sw) (fuel : ℕ) (s s' : Samp S σ E)
    (t t' : List Draw) (evs : List (List (Event S))) (hm : ∀ c ∈ s.chains, c.total = 0)
    (h : ptRun cfg par (tempering cfg fr tmax d) sw n b sv fuel s t = (.ok (some evs), s', t'))
    (j : ℕ) (c : Chain S σ E) (hj : s.chains[j]? = some c) :
    ∃ (ev : List (Event S)) (c' : Chain S σ E), evs[j]? = some ev ∧ s'.chains[j]? = some c' ∧
      ev.length = n.toNat ∧
      proj c'.saved = proj c.saved ++ (statesBy (BatchDue sw b sv) 1 ev).flatMap vals := by
  have key : ∀ (fuel : ℕ) (s : Samp S σ E) (t : List Draw) (evs : List (List (Event S))) (m : ℕ)
      (c : Chain S σ E), (∀ c ∈ s.chains, c.total = m) → (sw ∣ (m : ℤ) ∨ n ≤ m) →
      ptRun cfg par (tempering cfg fr tmax d) sw n b sv fuel s t = (.ok (some evs), s', t') →
      s.chains[j]? = some c →
      ∃ (ev : List (Event S)) (c' : Chain S σ E), evs[j]? = some ev ∧ s'.chains[j]? = some c' ∧
        ev.length = (n - m).toNat ∧
        proj c'.saved = proj c.saved ++ (statesBy (BatchDue sw b sv) (m + 1) ev).flatMap vals := by
    intro fuel
    induction fuel with
    | zero => intro s t evs m c _ _ h; simp [ptRun] at h
    | succ fuel ih =>
      intro s t evs m c hm hcase h hj
      rw [ptRun_succ] at h
      match hc : s.chains.head? with
      | none => rw [hc] at h; simp at h
      | some c0 =>
        rw [hc] at h
        simp only at h
        have hc0 : c0.total = m := hm c0 (List.mem_of_mem_head? hc)
        rw [hc0] at h
        match ha : (tempering cfg fr tmax d).advanceChain cfg par (ptIterations sw n m)
            (ptBurnin sw b m) sv s t with
        | (.error e, s1, t1) => rw [ha] at h; simp at h
        | (.ok evs1, s1, t1) =>
          rw [ha] at h
          simp only at h
          have hs1 := batch_total hd.total hm ha
          obtain ⟨ev1, c1, f1, f2, f3, f4⟩ := batch_saved proj vals hsave hd hm ha j c hj
          by_cases hn : n ≤ m
          · rw [if_pos hn] at h
            simp only [Prod.mk.injEq, Except.ok.injEq, Option.some.injEq] at h
            obtain ⟨rfl, rfl, rfl⟩ := h
            have e0 : (ptIterations sw n m).toNat = 0 := by unfold ptIterations; omega
            rw [e0] at f3
            have : ev1 = [] := List.length_eq_zero_iff.1 f3
            subst this
            exact ⟨[], c1, f1, f2, by simp; omega, by simpa [dueStates, statesBy] using f4⟩
          · rw [if_neg hn] at h
            match hr : ptRun cfg par (tempering cfg fr tmax d) sw n b sv fuel s1 t1 with
            | (.error e, s2, t2) => rw [hr] at h; simp at h
            | (.ok none, s2, t2) => rw [hr] at h; simp at h
            | (.ok (some evs2), s2, t2) =>
              rw [hr] at h
              simp only [Prod.mk.injEq, Except.ok.injEq, Option.some.injEq] at h
              obtain ⟨rfl, rfl, rfl⟩ := h
              have hk : ((ptIterations sw n m).toNat : ℤ) = min sw (n - m) := by
                unfold ptIterations; omega
              have hdv : sw ∣ (m : ℤ) := hcase.resolve_right hn
              have hcase' : sw ∣ ((m + (ptIterations sw n m).toNat : ℕ) : ℤ) ∨
                  n ≤ ((m + (ptIterations sw n m).toNat : ℕ) : ℤ) := by
                push_cast
                rw [hk]
                by_cases hsn : sw ≤ n - m
                · left
                  rw [min_eq_left hsn]
                  exact Int.dvd_add hdv (Int.dvd_refl sw)
                · right; omega
              obtain ⟨ev2, c2, g1, g2, g3, g4⟩ := ih s1 t1 evs2 _ c1 hs1 hcase' hr f2
              refine ⟨ev1 ++ ev2, c2, ?_, g2, ?_, ?_⟩
              · unfold joinEvents
                rw [List.getElem?_zipWith, f1, g1]
              · rw [List.length_append, f3, g3]
                push_cast
                omega
              · rw [g4, f4, statesBy_append, List.flatMap_append, List.append_assoc, f3, dueStates_eq]
                have e : m + 1 + (ptIterations sw n m).toNat = m + (ptIterations sw n m).toNat + 1 := by
                  omega
                rw [e]
                congr 3
                refine statesBy_congr _ _ _ _ fun i hi1 hi2 => ?_
                rw [f3] at hi2
                have hi3 : (i : ℤ) ≤ m + min sw (n - m) := by omega
                have hm' : sw * (((i : ℤ) - 1) / sw) = m := by
                  obtain ⟨q, hq⟩ := hdv
                  rw [mul_comm] at hq
                  have : ((i : ℤ) - 1) / sw = q := by
                    rw [Int.ediv_eq_iff_of_pos (by omega)]
                    have : (q + 1) * sw = q * sw + sw := by ring
                    constructor <;> omega
                  rw [this, hq, mul_comm]
                unfold ptBurnin BatchDue
                simp only [hm']
  have := key fuel s t evs 0 c hm (Or.inl (Int.dvd_zero sw)) h hj
  simpa using this

/-- C38 under the condition that the burn-in lies within the first batch and is a multiple of
`save_every` (or that there is a single batch): each chain saves, at the iterations at which it has
temperature 1, according to the same schedule as without tempering; in particular nothing during
burn-in.  Missing with respect to the full property: a burn-in that is longer than `swap_every`, and a
burn-in that is not a multiple of `save_every`; for them the property fails, see below. -/
theorem C38_partial {α : Type} (cfg : ChainCfg S σ) (proj : σ → List α) (vals : S → List α)
    (hsave : ∀ s st st', cfg.save s st = (.ok (), st') → proj st' = proj st ++ vals s)
    (fr tmax : ℝ) (par : Par) (d : SamplerDef S σ E)
    (hd : QuietHooks d) (sw n b sv : ℤ) (hsw : 1 ≤ sw) (hb : 0 ≤ b)
    (hcase : (b ≤ sw ∧ sv ∣ b) ∨ n ≤ sw) (fuel : ℕ) (s s' : Samp S σ E)
    (t t' : List Draw) (evs : List (List (Event S))) (hm : ∀ c ∈ s.chains, c.total = 0)
    (h : ptRun cfg par (tempering cfg fr tmax d) sw n b sv fuel s t = (.ok (some evs), s', t'))
    (j : ℕ) (c : Chain S σ E) (hj : s.chains[j]? = some c) :
    ∃ (ev : List (Event S)) (c' : Chain S σ E), evs[j]? = some ev ∧ s'.chains[j]? = some c' ∧
      ev.length = n.toNat ∧
      proj c'.saved = proj c.saved ++ (dueStates b sv 1 ev).flatMap vals := by
  obtain ⟨ev, c', e1, e2, e3, e4⟩ := C38_actual cfg proj vals hsave fr tmax par d hd sw n b sv hsw fuel
    s s' t t' evs hm h j c hj
  refine ⟨ev, c', e1, e2, e3, ?_⟩
  rw [e4, dueStates_eq]
  congr 2
  refine statesBy_congr _ _ _ _ fun i hi1 hi2 => ?_
  have hin : (i : ℤ) ≤ n := by omega
  have hi0 : 0 ≤ (i : ℤ) - 1 := by omega
  unfold BatchDue
  simp only
  have hfirst : (i : ℤ) ≤ sw → sw * (((i : ℤ) - 1) / sw) = 0 := by
    intro h
    rw [Int.ediv_eq_zero_of_lt hi0 (by omega), mul_zero]
  rcases hcase with ⟨h1, h2⟩ | h1
  · by_cases hfi : (i : ℤ) ≤ sw
    · rw [hfirst hfi, show max 0 (min sw (b - 0)) = b by omega]
    · have hge : sw ≤ sw * (((i : ℤ) - 1) / sw) := by
        have : 1 ≤ ((i : ℤ) - 1) / sw := by
          rw [Int.le_ediv_iff_mul_le (by omega)]; omega
        nlinarith
      rw [show max 0 (min sw (b - sw * (((i : ℤ) - 1) / sw))) = 0 by omega]
      unfold Due
      constructor
      · rintro ⟨-, h4⟩
        rw [Int.sub_zero] at h4
        exact ⟨by omega, Int.dvd_sub h4 h2⟩
      · rintro ⟨-, h4⟩
        have := Int.dvd_add h4 h2
        exact ⟨by omega, by rw [Int.sub_zero]; simpa using this⟩
  · rw [hfirst (by omega)]
    by_cases hbs : b ≤ sw
    · rw [show max 0 (min sw (b - 0)) = b by omega]
    · rw [show max 0 (min sw (b - 0)) = sw by omega]
      unfold Due
      exact ⟨fun h => absurd h.1 (by omega), fun h => absurd h.1 (by omega)⟩

/-! ### Completed runs, and a run that saves during burn-in -/

section Examples

noncomputable def half : Draw := exDraw (1/2) (by norm_num)

theorem exIteration (b sv : ℤ) (hsv : sv ≠ 0) (c : Chain ℤ (List ℤ) E) (t : List Draw) :
    ∃ ev c', Chain.iteration exCfg b sv Act.skip Act.skip c (half :: half :: t) = (.ok ev, c', t) ∧
      ev.temp = c.temp ∧ c'.temp = c.temp ∧ c'.total = c.total + 1 := by
  have hch : Chosen exCfg (half :: half :: t) "out" (fun s t => (.ok (s + 1, .ninf), t)) (half :: t) :=
    ⟨2, exChoice (1/2) (by norm_num) 2 (by norm_num) (by norm_num) (by norm_num) _, rfl⟩
  obtain ⟨ev, c', h, -, -, -, h1, -, h2, h3⟩ := iteration_exists exCfg (b := b) (s := sv) hsv (c := c)
    hch (new := c.cur + 1) (lpr := .ninf) (d := half) (t2 := t) rfl (by norm_num [half, exDraw])
    (by decide +kernel) (fun _ _ => rfl) (Or.inl ⟨rfl, rfl, rfl, rfl⟩)
  exact ⟨ev, c', h, h1, h3, h2⟩

theorem exAdvance (b sv : ℤ) (hsv : sv ≠ 0) (n : ℕ) (c : Chain ℤ (List ℤ) Unit) (k : ℕ) :
    ∃ evs c', Chain.advance exCfg b sv Act.skip Act.skip n c (List.replicate (n * 2 + k) half) =
      (.ok evs, c', List.replicate k half) ∧ c'.temp = c.temp ∧ ∀ ev ∈ evs, ev.temp = c.temp := by
  induction n generalizing c with
  | zero => exact ⟨[], c, by rw [Nat.zero_mul, Nat.zero_add]; rfl, rfl, by simp⟩
  | succ n ih =>
    obtain ⟨ev, c1, h1, h2, h3, -⟩ := exIteration b sv hsv c (List.replicate (n * 2 + k) half)
    obtain ⟨evs, c2, h4, h5, h6⟩ := ih c1
    refine ⟨ev :: evs, c2, ?_, h5.trans h3, ?_⟩
    · have e : (n + 1) * 2 + k = (n * 2 + k) + 1 + 1 := by ring
      rw [e, List.replicate_succ, List.replicate_succ]
      exact (advance_succ_ok exCfg).2 ⟨ev, evs, c1, _, rfl, h1, h4⟩
    · intro e he
      rcases List.mem_cons.1 he with rfl | he
      · exact h2
      · rw [h6 e he, h3]

/-- Two processes; any number of iterations. -/
noncomputable def exPar2 (N : ℕ) : Par := ⟨some 2, fun _ _ => List.replicate (N * 2) half⟩

theorem exSwap (s : Samp ℤ (List ℤ) Unit) (hl : s.chains.length = 2)
    (ht : ∀ c ∈ s.chains, c.temp = 1) (t : List Draw) :
    ∃ s', ptSwapRandom exCfg s (half :: half :: half :: t) = (.ok (), s', t) := by
  classical
  rw [ptSwapRandom_run, hl]
  have hp : pickTwo 2 (half :: half :: half :: t) = (.ok (0, 1), half :: t) := by rfl
  rw [hp]
  simp only
  unfold ptSwap
  match hs : s.chains, hl with
  | [c1, c2], _ =>
    have h1 : c1.temp = 1 := ht c1 (by rw [hs]; simp)
    have h2 : c2.temp = 1 := ht c2 (by rw [hs]; simp)
    simp only [List.getElem?_cons_zero, List.getElem?_cons_succ]
    unfold ptDecide
    have hu : ¬ (half.u ≤ 0) := by norm_num [half, exDraw]
    simp only [exCfg, h1, h2, hu, if_false, one_ne_zero, or_self]
    split
    · exact ⟨_, rfl⟩
    · exact ⟨_, rfl⟩

/-- A batch with two chains at temperature 1. -/
theorem exBatch (N k : ℕ) (hk : k ≤ N) (b sv : ℤ) (hsv : sv ≠ 0) (s : Samp ℤ (List ℤ) Unit)
    (hl : s.chains.length = 2) (ht : ∀ c ∈ s.chains, c.temp = 1) (t : List Draw) :
    ∃ evs s', (tempering exCfg 0 1 noHooks).advanceChain exCfg (exPar2 N) k b sv s
        (List.replicate 6 half ++ t) = (.ok evs, s', t) ∧ s'.chains.length = 2 ∧
        (∀ c ∈ s'.chains, c.temp = 1) ∧ ∀ ev ∈ evs, ∀ e ∈ ev, e.temp = 1 := by
  match hs : s.chains, hl with
  | [c1, c2], _ =>
    have h1 : c1.temp = 1 := ht c1 (by rw [hs]; simp)
    have h2 : c2.temp = 1 := ht c2 (by rw [hs]; simp)
    have eN : N * 2 = k * 2 + (N * 2 - k * 2) := by omega
    obtain ⟨ev1, d1, a1, a2, a3⟩ := exAdvance b sv hsv k { c1 with world := s.world } (N * 2 - k * 2)
    obtain ⟨ev2, d2, b1, b2, b3⟩ := exAdvance b sv hsv k { c2 with world := s.world } (N * 2 - k * 2)
    rw [← eN] at a1 b1
    have hEach : Samp.each (exPar2 N) (Chain.advance exCfg b sv
        (tempering exCfg 0 1 noHooks).beginIteration (tempering exCfg 0 1 noHooks).endIteration
        (k : ℤ).toNat) s (List.replicate 6 half ++ t) =
        (.ok [ev1, ev2], { s with chains := [d1, d2], batch := s.batch + 1 },
          List.replicate 6 half ++ t) := by
      refine samp_each_par (nj := 2) rfl (by norm_num) ?_
      rw [hs, Int.toNat_natCast]
      exact advPar_cons a1 (advPar_cons b1 rfl)
    let s1 : Samp ℤ (List ℤ) Unit := { s with chains := [d1, d2], batch := s.batch + 1 }
    have hs1 : ∀ c ∈ s1.chains, c.temp = 1 := by
      intro c hc
      rcases List.mem_cons.1 hc with rfl | hc
      · exact a2.trans h1
      · rcases List.mem_cons.1 hc with rfl | hc
        · exact b2.trans h2
        · simp at hc
    have hkeep : ∀ (s s' : Samp ℤ (List ℤ) Unit), SwapRel s s' → s.chains.length = 2 →
        (∀ c ∈ s.chains, c.temp = 1) → s'.chains.length = 2 ∧ ∀ c ∈ s'.chains, c.temp = 1 := by
      intro s s' hr hl ht
      refine ⟨hr.1.length_eq.symm.trans hl, fun c hc => ?_⟩
      have : c.temp ∈ s.chains.map (·.temp) :=
        hr.2.1.mem_iff.1 (List.mem_map_of_mem hc)
      obtain ⟨c0, hc0, e⟩ := List.mem_map.1 this
      rw [← e, ht c0 hc0]
    have hswapR : ∀ (s s' : Samp ℤ (List ℤ) Unit) t t', ptSwapRandom exCfg s t = (.ok (), s', t') →
        SwapRel s s' := by
      intro s s' t t' h
      have h' : ptSwaps exCfg 1 s t = (.ok (), s', t') :=
        (Act.bind_ok).2 ⟨(), s', t', h, rfl⟩
      exact (ptSwaps_keeps exCfg 1).ok h'
    obtain ⟨s2, c1'⟩ := exSwap s1 rfl hs1 (half :: half :: half :: t)
    obtain ⟨k1, k2⟩ := hkeep s1 s2 (hswapR _ _ _ _ c1') rfl hs1
    obtain ⟨s3, c2'⟩ := exSwap s2 k1 k2 t
    obtain ⟨k3, k4⟩ := hkeep s2 s3 (hswapR _ _ _ _ c2') k1 k2
    have hend : ptEndAdvance exCfg s1 (List.replicate 6 half ++ t) = (.ok (), s3, t) := by
      change ptSwaps exCfg 2 s1 _ = _
      exact (Act.bind_ok).2 ⟨(), s2, _, c1', (Act.bind_ok).2 ⟨(), s3, _, c2', rfl⟩⟩
    refine ⟨[ev1, ev2], s3, advanceChain_ok.2 ⟨s1, _, hEach, hend⟩, k3, k4, ?_⟩
    intro ev hev e he
    rcases List.mem_cons.1 hev with rfl | hev
    · exact (a3 e he).trans h1
    · rcases List.mem_cons.1 hev with rfl | hev
      · exact (b3 e he).trans h2
      · simp at hev

theorem exQuiet : QuietHooks (noHooks : SamplerDef ℤ (List ℤ) Unit) :=
  ⟨by simp [noHooks], by simp [noHooks]⟩

/-- For every number of iterations and every `swap_every ≥ 1` there is a completed run, so that the
hypotheses of the theorems above can be met. -/
theorem exTemperingFrom (N : ℕ) (sw n b sv : ℤ) (hsw : 1 ≤ sw) (hN : n ≤ N) (hsv : sv ≠ 0) (m : ℕ)
    (s : Samp ℤ (List ℤ) Unit) (hl : s.chains.length = 2) (ht : ∀ c ∈ s.chains, c.temp = 1)
    (hm : ∀ c ∈ s.chains, c.total = m) :
    ∃ fuel evs s' t t', ptRun exCfg (exPar2 N) (tempering exCfg 0 1 noHooks) sw n b sv fuel
        s t = (.ok (some evs), s', t') ∧ s'.chains.length = 2 ∧
        (∀ c ∈ s'.chains, c.temp = 1) ∧ ∀ ev ∈ evs, ∀ e ∈ ev, e.temp = 1 := by
  have key : ∀ (r m : ℕ) (s : Samp ℤ (List ℤ) Unit), (n - m).toNat ≤ r → s.chains.length = 2 →
      (∀ c ∈ s.chains, c.temp = 1) → (∀ c ∈ s.chains, c.total = m) →
      ∃ evs s' t', ptRun exCfg (exPar2 N) (tempering exCfg 0 1 noHooks) sw n b sv (r + 1)
        s (List.replicate (6 * (r + 1)) half) = (.ok (some evs), s', t') ∧ s'.chains.length = 2 ∧
        (∀ c ∈ s'.chains, c.temp = 1) ∧ ∀ ev ∈ evs, ∀ e ∈ ev, e.temp = 1 := by
    intro r
    induction r with
    | zero =>
      intro m s hr hl ht hm
      obtain ⟨evs, s1, h1, h2, h3, h6⟩ :=
        exBatch N 0 (Nat.zero_le _) (ptBurnin sw b m) sv hsv s hl ht []
      refine ⟨evs, s1, [], ?_, h2, h3, h6⟩
      rw [ptRun_succ]
      match hc : s.chains.head? with
      | none => rw [List.head?_eq_none_iff] at hc; rw [hc] at hl; simp at hl
      | some c0 =>
        have hc0 : c0.total = m := hm c0 (List.mem_of_mem_head? hc)
        simp only [hc0]
        have e : (tempering exCfg 0 1 noHooks).advanceChain exCfg (exPar2 N) (ptIterations sw n m)
            (ptBurnin sw b m) sv =
              (tempering exCfg 0 1 (noHooks : SamplerDef ℤ (List ℤ) Unit)).advanceChain
              exCfg (exPar2 N) ((0 : ℕ) : ℤ) (ptBurnin sw b m) sv := by
          unfold SamplerDef.advanceChain
          have : (ptIterations sw n m).toNat = 0 := by unfold ptIterations; omega
          rw [this]; rfl
        rw [List.append_nil] at h1
        rw [e, h1]
        simp only
        rw [if_pos (by omega)]
    | succ r ih =>
      intro m s hr hl ht hm
      obtain ⟨evs, s1, h1, h2, h3, h6⟩ := exBatch N (ptIterations sw n m).toNat
        (by unfold ptIterations; omega) (ptBurnin sw b m) sv hsv s hl ht
        (List.replicate (6 * (r + 1)) half)
      have e : (tempering exCfg 0 1 noHooks).advanceChain exCfg (exPar2 N) (ptIterations sw n m)
          (ptBurnin sw b m) sv =
            (tempering exCfg 0 1 (noHooks : SamplerDef ℤ (List ℤ) Unit)).advanceChain
            exCfg (exPar2 N) ((ptIterations sw n m).toNat : ℤ) (ptBurnin sw b m) sv := by
        unfold SamplerDef.advanceChain
        rw [Int.toNat_natCast]
      rw [← e, ← List.replicate_add, show 6 + 6 * (r + 1) = 6 * (r + 1 + 1) by ring] at h1
      rw [ptRun_succ]
      match hc : s.chains.head? with
      | none => rw [List.head?_eq_none_iff] at hc; rw [hc] at hl; simp at hl
      | some c0 =>
        have hc0 : c0.total = m := hm c0 (List.mem_of_mem_head? hc)
        simp only [hc0]
        rw [h1]
        simp only
        by_cases hn : n ≤ m
        · rw [if_pos hn]
          exact ⟨evs, s1, _, rfl, h2, h3, h6⟩
        · rw [if_neg hn]
          have hs1 := batch_total exQuiet.total hm h1
          obtain ⟨evs', s', t', h4, h5, h8, h7⟩ := ih _ s1 (by unfold ptIterations; omega) h2 h3 hs1
          rw [h4]
          refine ⟨joinEvents evs evs', s', t', rfl, h5, h8, ?_⟩
          intro ev hev e he
          unfold joinEvents at hev
          obtain ⟨k, hk⟩ := List.mem_iff_getElem?.1 hev
          rw [List.getElem?_zipWith] at hk
          match hk1 : evs[k]?, hk2 : evs'[k]? with
          | some x, some y =>
            rw [hk1, hk2] at hk
            simp only [Option.some.injEq] at hk
            subst hk
            rcases List.mem_append.1 he with he | he
            · exact h6 x (List.mem_of_getElem? hk1) e he
            · exact h7 y (List.mem_of_getElem? hk2) e he
          | none, _ => rw [hk1] at hk; simp at hk
          | some x, none => rw [hk1, hk2] at hk; simp at hk
  obtain ⟨evs, s', t', h⟩ := key _ m s le_rfl hl ht hm
  exact ⟨_, evs, s', _, t', h⟩

theorem exSamp_total : ∀ c ∈ exSamp.chains, c.total = 0 := by
  intro c hc
  simp [exSamp, Chain.init] at hc
  rw [hc]

theorem exTempering (N : ℕ) (sw n b sv : ℤ) (hsw : 1 ≤ sw) (hN : n ≤ N) (hsv : sv ≠ 0) :
    ∃ fuel evs s' t t', ptRun exCfg (exPar2 N) (tempering exCfg 0 1 noHooks) sw n b sv fuel
        exSamp t = (.ok (some evs), s', t') ∧ s'.chains.length = 2 ∧
        ∀ ev ∈ evs, ∀ e ∈ ev, e.temp = 1 := by
  obtain ⟨fuel, evs, s', t, t', h, h1, -, h2⟩ := exTemperingFrom N sw n b sv hsw hN hsv 0 exSamp rfl
    (by intro c hc; simp [exSamp, Chain.init] at hc; rw [hc]) exSamp_total
  exact ⟨fuel, evs, s', t, t', h, h1, h2⟩

/-- C37 applies. -/
example : ∃ fuel evs s' t t', ptRun exCfg (exPar2 5) (tempering exCfg 0 1 noHooks) 2 5 0 1 fuel
    exSamp t = (.ok (some evs), s', t') ∧ s'.chains.length = 2 ∧ ∀ c ∈ s'.chains, c.total = 5 := by
  obtain ⟨fuel, evs, s', t, t', h, h1, -⟩ := exTempering 5 2 5 0 1 (by norm_num) le_rfl (by norm_num)
  exact ⟨fuel, evs, s', t, t', h, h1, C37_exact exCfg 0 1 _ noHooks exQuiet.total 2 0 1 5 (by norm_num)
    fuel exSamp s' t t' evs exSamp_total h⟩

/-- C38 applies (burn-in of two iterations, batches of three, every second one saved: of seven
iterations the fourth and the sixth). -/
example : ∃ fuel evs s' t t', ptRun exCfg (exPar2 7) (tempering exCfg 0 1 noHooks) 3 7 2 2 fuel
    exSamp t = (.ok (some evs), s', t') ∧ ∃ c' ∈ s'.chains, ∃ ev ∈ evs, ev.length = 7 ∧
      c'.saved = dueStates 2 2 1 ev := by
  obtain ⟨fuel, evs, s', t, t', h, h1, -⟩ := exTempering 7 3 7 2 2 (by norm_num) le_rfl (by norm_num)
  obtain ⟨ev, c', e1, e2, e3, e4⟩ := C38_partial exCfg id (fun s => [s])
    (by intro s st st' h; simp only [exCfg, Prod.mk.injEq] at h; exact h.2.symm) 0 1 _ noHooks exQuiet
    3 7 2 2 (by norm_num) (by norm_num) (Or.inl ⟨by norm_num, by norm_num⟩) fuel exSamp s' t t' evs
    exSamp_total h 0 _ rfl
  refine ⟨fuel, evs, s', t, t', h, c', List.mem_of_getElem? e2, ev, List.mem_of_getElem? e1, e3, ?_⟩
  simpa [Chain.init] using e4

/-- C38 is false in general: two iterations, both of them burn-in, `swap_every = 1`, `save_every = 1`,
two fresh chains at temperature one.  Each chain saves its second state. -/
theorem C38_false_burnin : ∃ fuel evs s' t t',
    ptRun exCfg (exPar2 2) (tempering exCfg 0 1 noHooks) 1 2 2 1 fuel exSamp t =
      (.ok (some evs), s', t') ∧ s'.chains.length = 2 ∧
      ∀ (j : ℕ) (c' : Chain ℤ (List ℤ) Unit), s'.chains[j]? = some c' →
        ∃ e1 e2, evs[j]? = some [e1, e2] ∧ c'.saved = [visited e2] := by
  classical
  obtain ⟨fuel, evs, s', t, t', h, h1, h2⟩ := exTempering 2 1 2 2 1 (by norm_num) le_rfl (by norm_num)
  refine ⟨fuel, evs, s', t, t', h, h1, ?_⟩
  intro j c' hj
  have hlt : j < 2 := by
    have := (List.getElem?_eq_some_iff.1 hj).1
    omega
  have hc : exSamp.chains[j]? = some (Chain.init 0 [] 1 ()) := by
    match j, hlt with
    | 0, _ => rfl
    | 1, _ => rfl
  obtain ⟨ev, c1, e1, e2, e3, e4⟩ := C38_actual exCfg id (fun s => [s])
    (by intro s st st' h; simp only [exCfg, Prod.mk.injEq] at h; exact h.2.symm) 0 1 _ noHooks exQuiet
    1 2 2 1 (by norm_num) fuel exSamp s' t t' evs exSamp_total h j _ hc
  rw [hj] at e2
  obtain rfl := Option.some.inj e2
  match ev, e3 with
  | [a, b], _ =>
    have ha := h2 _ (List.mem_of_getElem? e1) a (by simp)
    have hb := h2 _ (List.mem_of_getElem? e1) b (by simp)
    refine ⟨a, b, e1, ?_⟩
    have d1 : ¬ BatchDue 1 2 1 1 := by norm_num [BatchDue, Due]
    have d2 : BatchDue 1 2 1 2 := by norm_num [BatchDue, Due]
    simp only [statesBy, d1, d2, ha, hb, and_true, if_true, if_false] at e4
    simpa [Chain.init] using e4

/-- C38 is false in general also when the burn-in is shorter than `swap_every`: four iterations,
one of burn-in, `swap_every = 2`, `save_every = 2`: the fourth state is saved, instead of the third. -/
theorem C38_false_phase : ∃ fuel evs s' t t',
    ptRun exCfg (exPar2 4) (tempering exCfg 0 1 noHooks) 2 4 1 2 fuel exSamp t =
      (.ok (some evs), s', t') ∧ s'.chains.length = 2 ∧
      ∀ (j : ℕ) (c' : Chain ℤ (List ℤ) Unit), s'.chains[j]? = some c' →
        ∃ e1 e2 e3 e4, evs[j]? = some [e1, e2, e3, e4] ∧ c'.saved = [visited e4] ∧
          dueStates 1 2 1 [e1, e2, e3, e4] = [visited e3] := by
  classical
  obtain ⟨fuel, evs, s', t, t', h, h1, h2⟩ := exTempering 4 2 4 1 2 (by norm_num) le_rfl (by norm_num)
  refine ⟨fuel, evs, s', t, t', h, h1, ?_⟩
  intro j c' hj
  have hlt : j < 2 := by
    have := (List.getElem?_eq_some_iff.1 hj).1
    omega
  have hc : exSamp.chains[j]? = some (Chain.init 0 [] 1 ()) := by
    match j, hlt with
    | 0, _ => rfl
    | 1, _ => rfl
  obtain ⟨ev, c1, e1, e2, e3, e4⟩ := C38_actual exCfg id (fun s => [s])
    (by intro s st st' h; simp only [exCfg, Prod.mk.injEq] at h; exact h.2.symm) 0 1 _ noHooks exQuiet
    2 4 1 2 (by norm_num) fuel exSamp s' t t' evs exSamp_total h j _ hc
  rw [hj] at e2
  obtain rfl := Option.some.inj e2
  match ev, e3 with
  | [a, b, c, d], _ =>
    have ha := h2 _ (List.mem_of_getElem? e1) a (by simp)
    have hb := h2 _ (List.mem_of_getElem? e1) b (by simp)
    have hc := h2 _ (List.mem_of_getElem? e1) c (by simp)
    have hd := h2 _ (List.mem_of_getElem? e1) d (by simp)
    have d1 : ¬ BatchDue 2 1 2 1 := by norm_num [BatchDue, Due]
    have d2 : ¬ BatchDue 2 1 2 2 := by norm_num [BatchDue, Due]
    have d3 : ¬ BatchDue 2 1 2 3 := by norm_num [BatchDue, Due]
    have d4 : BatchDue 2 1 2 4 := by norm_num [BatchDue, Due]
    have f1 : ¬ Due 1 2 1 := by norm_num [Due]
    have f2 : ¬ Due 1 2 2 := by norm_num [Due]
    have f3 : Due 1 2 3 := by norm_num [Due]
    have f4 : ¬ Due 1 2 4 := by norm_num [Due]
    refine ⟨a, b, c, d, e1, ?_, ?_⟩
    · simp only [statesBy, d1, d2, d3, d4, ha, hb, hc, hd, and_true, if_true, if_false] at e4
      simpa [Chain.init] using e4
    · simp [dueStates, f1, f2, f3, f4, ha, hb, hc, hd]

end Examples

end BB.Props

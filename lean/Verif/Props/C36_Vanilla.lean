import Verif.Lemmas.Samplers
import Verif.Props.C01_C04_Iteration

/-!
# C36: the vanilla sampler
-/

namespace BB.Props

open BB BB.Lemmas

variable {S σ E : Type}

theorem vanillaRun_ok {cfg : ChainCfg S σ} {par : Par} {d : SamplerDef S σ E} {n b sv : ℤ}
    {s s' : Samp S σ E} {t t' : List Draw} {evs : List (List (Event S))} :
    vanillaRun cfg par d n b sv s t = (.ok evs, s', t') ↔
      Samp.each par (Chain.advance cfg b sv (vanilla d).beginIteration (vanilla d).endIteration
        n.toNat) s t = (.ok evs, s', t') := by
  unfold vanillaRun
  rw [advanceChain_ok]
  constructor
  · rintro ⟨s1, t1, h1, h2⟩
    simp only [vanilla, Act.skip, Prod.mk.injEq, true_and] at h2
    obtain ⟨rfl, rfl⟩ := h2
    exact h1
  · intro h
    exact ⟨s', t', h, rfl⟩

/-- C36: a completed run keeps the number and the order of the chains and advances each of them by
exactly `n` iterations (none if `n` is negative). -/
theorem C36_iterations (cfg : ChainCfg S σ) (par : Par) (d : SamplerDef S σ E)
    (hb : ∀ f ∈ d.extraBegin, Act.Keeps f fun c c' => c'.total = c.total)
    (he : ∀ f ∈ d.extraEnd, Act.Keeps f fun c c' => c'.total = c.total)
    (n b sv : ℤ) (s s' : Samp S σ E) (t t' : List Draw) (evs : List (List (Event S)))
    (h : vanillaRun cfg par d n b sv s t = (.ok evs, s', t')) :
    s'.chains.length = s.chains.length ∧ evs.length = s.chains.length ∧
    ∀ (k : ℕ) (c : Chain S σ E), s.chains[k]? = some c →
      ∃ (c' : Chain S σ E) (ev : List (Event S)), s'.chains[k]? = some c' ∧ evs[k]? = some ev ∧
      c'.total = c.total + n.toNat ∧ ev.length = n.toNat := by
  have hE := samp_each (vanillaRun_ok.1 h)
  refine ⟨hE.lengths.2, hE.lengths.1, fun k c hk => ?_⟩
  obtain ⟨a, c', w, t1, t2, h1, h2, h3⟩ := hE.get hk
  have := advance_total cfg
    (begin_keeps_eq (·.total) (d := vanilla d) (skip_keeps fun _ => rfl) hb)
    (end_keeps_eq (·.total) (d := vanilla d) (skip_keeps fun _ => rfl) he) h3
  exact ⟨c', a, h2, h1, this.1, this.2⟩

theorem advPar_get {α : Type} {f : Act (Chain S σ E) α} {work : ℕ → List Draw} {w : E} {j : ℕ}
    {cs cs' : List (Chain S σ E)} {as : List α} (h : advPar f work w j cs = .ok (as, cs')) (k : ℕ) :
    cs'[k]? = (cs[k]?).map (fun c => (f { c with world := w } (work (j + k))).2.1) := by
  induction cs generalizing j as cs' k with
  | nil =>
    simp only [advPar, Except.ok.injEq, Prod.mk.injEq] at h
    obtain ⟨rfl, rfl⟩ := h
    simp
  | cons c cs ih =>
    rw [advPar] at h
    match hf : f { c with world := w } (work j) with
    | (.error e, c1, t1) => rw [hf] at h; simp at h
    | (.ok a, c1, t1) =>
      rw [hf] at h
      simp only at h
      match hr : advPar f work w (j + 1) cs with
      | .error e => rw [hr] at h; simp at h
      | .ok (as1, cs1) =>
        rw [hr] at h
        simp only [Except.ok.injEq, Prod.mk.injEq] at h
        obtain ⟨rfl, rfl⟩ := h
        cases k with
        | zero => simp [hf]
        | succ k =>
          simp only [List.getElem?_cons_succ]
          rw [ih hr k, Nat.add_right_comm]
          rfl

/-- C36, independence with several processes: what becomes of a chain is a function of this chain, of
the outside world at the beginning and of the draws of its process; the other chains are irrelevant. -/
theorem C36_independent (cfg : ChainCfg S σ) (par : Par) (nj : ℤ) (hn : par.nJobs = some nj)
    (hj : 1 < nj) (d : SamplerDef S σ E) (n b sv : ℤ) (s s' : Samp S σ E) (t t' : List Draw)
    (evs : List (List (Event S))) (h : vanillaRun cfg par d n b sv s t = (.ok evs, s', t')) (k : ℕ) :
    s'.chains[k]? = (s.chains[k]?).map (fun c =>
      (Chain.advance cfg b sv (vanilla d).beginIteration (vanilla d).endIteration n.toNat
        { c with world := s.world } (par.work s.batch k)).2.1) := by
  have h := vanillaRun_ok.1 h
  unfold Samp.each at h
  rw [hn] at h
  simp only [hj, if_true] at h
  match hr : advPar (Chain.advance cfg b sv (vanilla d).beginIteration (vanilla d).endIteration
      n.toNat) (par.work s.batch) s.world 0 s.chains with
  | .error e => rw [hr] at h; simp at h
  | .ok (as1, cs1) =>
    rw [hr] at h
    simp only [Prod.mk.injEq, Except.ok.injEq] at h
    obtain ⟨-, rfl, -⟩ := h
    have := advPar_get hr k
    simp only [Nat.zero_add] at this
    exact this

theorem advSeq_threaded {α : Type} {f : Act (Chain S σ E) α} {cs cs' : List (Chain S σ E)}
    {w w' : E} {t t' : List Draw} {as : List α} (h : advSeq f cs w t = (.ok as, cs', w', t')) :
    ∃ (tapes : ℕ → List Draw) (worlds : ℕ → E), tapes 0 = t ∧ worlds 0 = w ∧
      tapes cs.length = t' ∧ worlds cs.length = w' ∧
      ∀ (k : ℕ) (c : Chain S σ E), cs[k]? = some c →
        ∃ (a : α) (c' : Chain S σ E), as[k]? = some a ∧ cs'[k]? = some c' ∧
        c'.world = worlds (k + 1) ∧
        f { c with world := worlds k } (tapes k) = (.ok a, c', tapes (k + 1)) := by
  induction cs generalizing w t w' t' as cs' with
  | nil =>
    simp only [advSeq, Prod.mk.injEq, Except.ok.injEq] at h
    obtain ⟨rfl, rfl, rfl, rfl⟩ := h
    exact ⟨fun _ => t, fun _ => w, rfl, rfl, rfl, rfl, by simp⟩
  | cons c cs ih =>
    rw [advSeq] at h
    match hf : f { c with world := w } t with
    | (.error e, c1, t1) => rw [hf] at h; simp at h
    | (.ok a, c1, t1) =>
      rw [hf] at h
      simp only at h
      match hr : advSeq f cs c1.world t1 with
      | (.error e, cs1, w1, t2) => rw [hr] at h; simp at h
      | (.ok as1, cs1, w1, t2) =>
        rw [hr] at h
        simp only [Prod.mk.injEq, Except.ok.injEq] at h
        obtain ⟨rfl, rfl, rfl, rfl⟩ := h
        obtain ⟨tp, wd, e1, e2, e3, e4, hk⟩ := ih hr
        refine ⟨fun k => match k with | 0 => t | k + 1 => tp k,
          fun k => match k with | 0 => w | k + 1 => wd k, rfl, rfl, e3, e4, ?_⟩
        intro k c' hk'
        cases k with
        | zero =>
          simp only [List.getElem?_cons_zero, Option.some.injEq] at hk'
          subst hk'
          refine ⟨a, c1, rfl, rfl, ?_, ?_⟩
          · simp only; exact e2.symm
          · simp only
            rw [hf, e1]
        | succ k =>
          simp only [List.getElem?_cons_succ] at hk' ⊢
          exact hk k c' hk'

/-- C36 in a single process: the chains are advanced one after the other, each by the same function of
itself and of the draws not used by the preceding ones; a chain sees of the others nothing but what the
registered functions have left in the outside world. -/
theorem C36_sequential (cfg : ChainCfg S σ) (par : Par) (nj : ℤ) (hn : par.nJobs = some nj)
    (hj : nj ≤ 1) (d : SamplerDef S σ E) (n b sv : ℤ) (s s' : Samp S σ E) (t t' : List Draw)
    (evs : List (List (Event S))) (h : vanillaRun cfg par d n b sv s t = (.ok evs, s', t')) :
    ∃ (tapes : ℕ → List Draw) (worlds : ℕ → E), tapes 0 = t ∧ worlds 0 = s.world ∧
      tapes s.chains.length = t' ∧ worlds s.chains.length = s'.world ∧
      ∀ (k : ℕ) (c : Chain S σ E), s.chains[k]? = some c →
        ∃ (ev : List (Event S)) (c' : Chain S σ E), evs[k]? = some ev ∧ s'.chains[k]? = some c' ∧
        c'.world = worlds (k + 1) ∧
        Chain.advance cfg b sv (vanilla d).beginIteration (vanilla d).endIteration n.toNat
          { c with world := worlds k } (tapes k) = (.ok ev, c', tapes (k + 1)) := by
  have h := vanillaRun_ok.1 h
  unfold Samp.each at h
  rw [hn] at h
  have hj' : ¬ (1 < nj) := by omega
  simp only [hj', if_false] at h
  match hr : advSeq (Chain.advance cfg b sv (vanilla d).beginIteration (vanilla d).endIteration
      n.toNat) s.chains s.world t with
  | (r, cs1, w1, t1) =>
    rw [hr] at h
    simp only [Prod.mk.injEq] at h
    obtain ⟨rfl, rfl, rfl⟩ := h
    exact advSeq_threaded hr

/-! ### A non-trivial instance -/

section Examples

/-- A sampler without registered functions. -/
def noHooks : SamplerDef S σ E where
  onInit := Act.skip
  onBegin := Act.skip
  onEnd := Act.skip
  onEndAdvance := Act.skip

theorem bind_skip_skip : (noHooks : SamplerDef S σ E).beginIteration = Act.skip ∧
    (noHooks : SamplerDef S σ E).endIteration = Act.skip := ⟨rfl, rfl⟩

/-- Two chains advanced by one iteration each, by two processes. -/
noncomputable def exPar : Par :=
  ⟨some 2, fun _ _ => [exDraw (1/2) (by norm_num), exDraw (1/2) (by norm_num)]⟩

noncomputable def exSamp : Samp ℤ (List ℤ) Unit :=
  ⟨[Chain.init 0 [] 1 (), Chain.init 0 [] 1 ()], (), 0⟩

theorem exVanilla : ∃ evs s' t', vanillaRun exCfg exPar noHooks 1 0 1 exSamp [] =
    (.ok evs, s', t') := by
  obtain ⟨evs, c', t', h⟩ := exRun
  have h0 : ∀ j, Chain.advance exCfg 0 1 (vanilla noHooks).beginIteration
      (vanilla noHooks).endIteration (1 : ℤ).toNat (Chain.init (0 : ℤ) [] 1 ()) (exPar.work 0 j) =
        (.ok evs, c', t') := fun _ => h
  exact ⟨[evs, evs], _, [], vanillaRun_ok.2 (samp_each_par (nj := 2) rfl (by norm_num)
    (advPar_cons (h0 0) (advPar_cons (h0 1) rfl)))⟩

example : ∃ evs s' t', vanillaRun exCfg exPar noHooks 1 0 1 exSamp [] = (.ok evs, s', t') ∧
    s'.chains.length = 2 ∧ ∀ c ∈ s'.chains, c.total = 1 := by
  obtain ⟨evs, s', t', h⟩ := exVanilla
  obtain ⟨h1, h2, h3⟩ := C36_iterations exCfg exPar noHooks (by simp [noHooks]) (by simp [noHooks])
    1 0 1 exSamp s' [] t' evs h
  refine ⟨evs, s', t', h, h1, ?_⟩
  intro c hc
  obtain ⟨k, hk⟩ := List.mem_iff_getElem?.1 hc
  have hk2 : k < 2 := by
    have := (List.getElem?_eq_some_iff.1 hk).1
    rw [h1] at this
    exact this
  have hs : ∃ c0, exSamp.chains[k]? = some c0 ∧ c0.total = 0 := by
    match k, hk2 with
    | 0, _ => exact ⟨_, rfl, rfl⟩
    | 1, _ => exact ⟨_, rfl, rfl⟩
  obtain ⟨c0, e1, e2⟩ := hs
  obtain ⟨c', ev, e3, -, e4, -⟩ := h3 k c0 e1
  rw [hk] at e3
  obtain rfl := Option.some.inj e3
  rw [e4, e2]
  rfl

end Examples

end BB.Props

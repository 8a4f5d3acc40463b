import Verif.Props.C43_Continue

/-!
# C44: the functions registered with a sampler

The calls are observed through the outside world, which is taken to contain a log.  A function
*writes* a tag if a call that returns appends exactly this tag to the log, whatever else it does.
-/

namespace BB.Props

open BB BB.Lemmas BB.Spec

variable {S σ E τ : Type}

/-- A call of `f` that returns appends `tag` to the log `lg` of the chain's world. -/
def Writes (lg : E → List τ) (f : Act (Chain S σ E) Unit) (tag : List τ) : Prop :=
  ∀ c t c' t', f c t = (.ok (), c', t') → lg c'.world = lg c.world ++ tag

theorem writes_runAll {lg : E → List τ} {fs : List (Act (Chain S σ E) Unit)} {tags : List (List τ)}
    (h : List.Forall₂ (Writes lg) fs tags) : Writes lg (runAll fs) tags.flatten := by
  induction h with
  | nil =>
    intro c t c' t' h
    change (Except.ok (), c, t) = _ at h
    simp only [Prod.mk.injEq] at h
    obtain ⟨-, rfl, -⟩ := h
    simp
  | cons hf _ ih =>
    intro c t c' t' h
    obtain ⟨_, c1, t1, h1, h2⟩ := Act.bind_ok.1 h
    rw [ih _ _ _ _ h2, hf _ _ _ _ h1, List.flatten_cons, List.append_assoc]

/-- C44 for one chain: in `n` iterations, the sampler's own hook, the functions registered for the
beginning of an iteration, in the order of registration, the sampler's own hook for the end of an
iteration and the functions registered for that are called once per iteration, in this order.
Missing with respect to the full property: the functions registered with `add_on_end_advance_chain`, for
which it is false, see `C44_end_advance_false`. -/
theorem C44_iterations_partial (cfg : ChainCfg S σ) (lg : E → List τ) (d : SamplerDef S σ E) (ob oe : List τ)
    (tb te : List (List τ)) (h1 : Writes lg d.onBegin ob) (h2 : Writes lg d.onEnd oe)
    (h3 : List.Forall₂ (Writes lg) d.extraBegin tb) (h4 : List.Forall₂ (Writes lg) d.extraEnd te)
    (b sv : ℤ) (n : ℕ) (c c' : Chain S σ E) (t t' : List Draw) (evs : List (Event S))
    (h : Chain.advance cfg b sv d.beginIteration d.endIteration n c t = (.ok evs, c', t')) :
    lg c'.world = lg c.world ++
      (List.replicate n (ob ++ tb.flatten ++ (oe ++ te.flatten))).flatten := by
  have hb : Writes lg d.beginIteration (ob ++ tb.flatten) := by
    intro c t c' t' h
    obtain ⟨_, c1, t1, e1, e2⟩ := Act.bind_ok.1 h
    rw [writes_runAll h3 _ _ _ _ e2, h1 _ _ _ _ e1, List.append_assoc]
  have he : Writes lg d.endIteration (oe ++ te.flatten) := by
    intro c t c' t' h
    obtain ⟨_, c1, t1, e1, e2⟩ := Act.bind_ok.1 h
    rw [writes_runAll h4 _ _ _ _ e2, h2 _ _ _ _ e1, List.append_assoc]
  induction n generalizing c t evs with
  | zero =>
    rw [advance_zero] at h
    simp only [Prod.mk.injEq, Except.ok.injEq] at h
    obtain ⟨rfl, rfl, rfl⟩ := h
    simp
  | succ n ih =>
    rw [advance_succ_ok] at h
    obtain ⟨ev, evs', c1, t1, rfl, g1, g2⟩ := h
    obtain ⟨d1, d2, d3, t2, t3, k1, k2, k3, k4⟩ := (iteration_ok cfg).1 g1
    obtain ⟨-, -, rfl⟩ := setFlag_ok.1 k1
    have hn := (next_effect cfg k3).world
    rw [ih _ _ _ g2, he _ _ _ _ k4, hn, hb _ _ _ _ k2, List.replicate_succ, List.flatten_cons]
    simp only [List.append_assoc]

/-- C44 for all chains of a sampler in a single process: the chains are advanced one after the other,
and in each iteration of each of them the functions are called once, in the order above
(missing: as above). -/
theorem C44_sequential_partial (cfg : ChainCfg S σ) (lg : E → List τ) (par : Par) (nj : ℤ)
    (hn : par.nJobs = some nj) (hj : nj ≤ 1) (d : SamplerDef S σ E) (ob oe : List τ)
    (tb te : List (List τ)) (h1 : Writes lg d.onBegin ob) (h2 : Writes lg d.onEnd oe)
    (h3 : List.Forall₂ (Writes lg) d.extraBegin tb) (h4 : List.Forall₂ (Writes lg) d.extraEnd te)
    (n b sv : ℤ) (s s' : Samp S σ E) (t t' : List Draw) (evs : List (List (Event S)))
    (h : Samp.each par (Chain.advance cfg b sv d.beginIteration d.endIteration n.toNat) s t =
      (.ok evs, s', t')) :
    lg s'.world = lg s.world ++
      (List.replicate (s.chains.length * n.toNat) (ob ++ tb.flatten ++ (oe ++ te.flatten))).flatten := by
  unfold Samp.each at h
  rw [hn] at h
  have hj' : ¬ (1 < nj) := by omega
  simp only [hj', if_false] at h
  have key : ∀ (cs cs' : List (Chain S σ E)) (w w' : E) (t t' : List Draw)
      (evs : List (List (Event S))),
      advSeq (Chain.advance cfg b sv d.beginIteration d.endIteration n.toNat) cs w t =
        (.ok evs, cs', w', t') →
      lg w' = lg w ++
        (List.replicate (cs.length * n.toNat) (ob ++ tb.flatten ++ (oe ++ te.flatten))).flatten := by
    intro cs
    induction cs with
    | nil =>
      intro cs' w w' t t' evs h
      simp only [advSeq, Prod.mk.injEq] at h
      obtain ⟨-, -, rfl, -⟩ := h
      simp
    | cons c cs ih =>
      intro cs' w w' t t' evs h
      rw [advSeq] at h
      match hf : Chain.advance cfg b sv d.beginIteration d.endIteration n.toNat { c with world := w } t with
      | (.error e, c1, t1) => rw [hf] at h; simp at h
      | (.ok a, c1, t1) =>
        rw [hf] at h
        simp only at h
        match hr : advSeq (Chain.advance cfg b sv d.beginIteration d.endIteration n.toNat) cs c1.world t1
          with
        | (.error e, cs1, w1, t2) => rw [hr] at h; simp at h
        | (.ok as1, cs1, w1, t2) =>
          rw [hr] at h
          simp only [Prod.mk.injEq] at h
          obtain ⟨-, -, rfl, -⟩ := h
          have e1 := C44_iterations_partial cfg lg d ob oe tb te h1 h2 h3 h4 b sv n.toNat _ _ _ _ _ hf
          simp only at e1
          rw [ih _ _ _ _ _ _ hr, e1, List.append_assoc, ← List.flatten_append, ← List.replicate_add,
            List.length_cons]
          congr 3
          ring
  match hr : advSeq (Chain.advance cfg b sv d.beginIteration d.endIteration n.toNat) s.chains s.world t
    with
  | (r, cs1, w1, t1) =>
    rw [hr] at h
    simp only [Prod.mk.injEq] at h
    obtain ⟨rfl, rfl, rfl⟩ := h
    exact key _ _ _ _ _ _ _ hr

/-- With several processes, the functions act on copies of the world: nothing of what they do to it
is left afterwards. -/
theorem C44_parallel_lost {α : Type} (par : Par) (nj : ℤ) (hn : par.nJobs = some nj) (hj : 1 < nj)
    (f : Act (Chain S σ E) α) (s : Samp S σ E) (t : List Draw) :
    (Samp.each par f s t).2.1.world = s.world := by
  unfold Samp.each
  rw [hn]
  simp only [hj, if_true]
  match advPar f (par.work s.batch) s.world 0 s.chains with
  | .error e => rfl
  | .ok (as, cs) => rfl

/-! ### Functions called on initialization -/

/-- A call of `f` that returns appends `tag` to the log of the sampler's world. -/
def SWrites (lg : E → List τ) (f : Act (Samp S σ E) Unit) (tag : List τ) : Prop :=
  ∀ s t s' t', f s t = (.ok (), s', t') → lg s'.world = lg s.world ++ tag

/-- C44, `add_on_initialize`: a run begins with the sampler's own initialization and the registered
functions, each called once and in order, before anything else happens. -/
theorem C44_initialize {α : Type} (lg : E → List τ) (d : SamplerDef S σ E) (o : List τ)
    (ti : List (List τ)) (h1 : SWrites lg d.onInit o) (h2 : List.Forall₂ (SWrites lg) d.extraInit ti)
    (run : Act (Samp S σ E) α) (a : α) (s s' : Samp S σ E) (t t' : List Draw)
    (h : inversionRun d run s t = (.ok a, s', t')) :
    ∃ s1 t1, lg s1.world = lg s.world ++ (o ++ ti.flatten) ∧ run s1 t1 = (.ok a, s', t') := by
  obtain ⟨_, s1, t1, e1, e2⟩ := Act.bind_ok.1 h
  refine ⟨s1, t1, ?_, e2⟩
  obtain ⟨_, s2, t2, e3, e4⟩ := Act.bind_ok.1 e1
  have key : ∀ (fs : List (Act (Samp S σ E) Unit)) (tags : List (List τ)),
      List.Forall₂ (SWrites lg) fs tags → SWrites lg (runAll fs) tags.flatten := by
    intro fs tags h
    induction h with
    | nil =>
      intro c t c' t' h
      change (Except.ok (), c, t) = _ at h
      simp only [Prod.mk.injEq] at h
      obtain ⟨-, rfl, -⟩ := h
      simp
    | cons hf _ ih =>
      intro c t c' t' h
      obtain ⟨_, c1, t1, h1, h2⟩ := Act.bind_ok.1 h
      rw [ih _ _ _ _ h2, hf _ _ _ _ h1, List.flatten_cons, List.append_assoc]
  rw [key _ _ h2 _ _ _ _ e4, h1 _ _ _ _ e3, List.append_assoc]

/-- ... and they are not called again during the run: the runs of the three samplers do not depend on
them. -/
theorem C44_initialize_once (cfg : ChainCfg S σ) (par : Par) (d : SamplerDef S σ E)
    (fs : List (Act (Samp S σ E) Unit)) (fr tmax T0 : ℝ) (sw n b sv : ℤ) (fuel : ℕ) :
    vanillaRun cfg par { d with extraInit := fs } n b sv = vanillaRun cfg par d n b sv ∧
    ptRun cfg par (tempering cfg fr tmax { d with extraInit := fs }) sw n b sv fuel =
      ptRun cfg par (tempering cfg fr tmax d) sw n b sv fuel ∧
    saRun cfg par { d with extraInit := fs } T0 n b sv = saRun cfg par d T0 n b sv := by
  refine ⟨rfl, ?_, rfl⟩
  induction fuel with
  | zero => rfl
  | succ fuel ih =>
    funext s t
    rw [ptRun_succ, ptRun_succ, ih]
    rfl

/-! ### `add_on_end_advance_chain` -/

/-- C44 is false for `add_on_end_advance_chain`: the functions registered with it have no influence on
a run, of any of the samplers; in particular they are never called. -/
theorem C44_end_advance_false (cfg : ChainCfg S σ) (par : Par) (d : SamplerDef S σ E)
    (fs : List (Act (Samp S σ E) Unit)) (fr tmax T0 rate : ℝ) (sw n b sv : ℤ) (fuel : ℕ) :
    inversionRun (vanilla { d with extraEndAdvance := fs })
        (vanillaRun cfg par { d with extraEndAdvance := fs } n b sv) =
      inversionRun (vanilla d) (vanillaRun cfg par d n b sv) ∧
    inversionRun (tempering cfg fr tmax { d with extraEndAdvance := fs })
        (ptRun cfg par (tempering cfg fr tmax { d with extraEndAdvance := fs }) sw n b sv fuel) =
      inversionRun (tempering cfg fr tmax d) (ptRun cfg par (tempering cfg fr tmax d) sw n b sv fuel) ∧
    inversionRun (annealing cfg T0 rate b { d with extraEndAdvance := fs })
        (saRun cfg par { d with extraEndAdvance := fs } T0 n b sv) =
      inversionRun (annealing cfg T0 rate b d) (saRun cfg par d T0 n b sv) := by
  refine ⟨rfl, ?_, rfl⟩
  have : ptRun cfg par (tempering cfg fr tmax { d with extraEndAdvance := fs }) sw n b sv fuel =
      ptRun cfg par (tempering cfg fr tmax d) sw n b sv fuel := by
    induction fuel with
    | zero => rfl
    | succ fuel ih =>
      funext s t
      rw [ptRun_succ, ptRun_succ, ih]
      rfl
  rw [this]
  rfl

/-! ### Instances -/

section Examples

/-- A function that appends a number to the log. -/
def logNat (k : ℕ) : Act (Chain S σ (List ℕ)) Unit := Act.modify fun c => { c with world := c.world ++ [k] }

theorem logNat_writes (k : ℕ) : Writes (S := S) (σ := σ) (fun w : List ℕ => w) (logNat k) [k] := by
  intro c t c' t' h
  change (Except.ok (), { c with world := c.world ++ [k] }, t) = _ at h
  simp only [Prod.mk.injEq] at h
  obtain ⟨-, rfl, -⟩ := h
  rfl

/-- Two functions at the beginning and one at the end of an iteration. -/
def exLogged : SamplerDef S σ (List ℕ) where
  onInit := Act.skip
  onBegin := logNat 0
  onEnd := logNat 10
  onEndAdvance := Act.skip
  extraBegin := [logNat 1, logNat 2]
  extraEnd := [logNat 11]

example : ∃ evs c' t', Chain.advance exCfg 0 1 exLogged.beginIteration exLogged.endIteration 2
    (Chain.init (0 : ℤ) [] 1 ([] : List ℕ)) [half, half, half, half] = (.ok evs, c', t') ∧
    c'.world = [0, 1, 2, 10, 11, 0, 1, 2, 10, 11] := by
  have hit : ∀ (c : Chain ℤ (List ℤ) (List ℕ)) t, ∃ ev c', Chain.iteration exCfg 0 1
      exLogged.beginIteration exLogged.endIteration c (half :: half :: t) = (.ok ev, c', t) := by
    intro c t
    have hflag : ∃ c1, Chain.setFlag 0 1 c (half :: half :: t) = (.ok (), c1, half :: half :: t) :=
      ⟨_, (setFlag_ok).2 ⟨Or.inr (by norm_num), rfl, rfl⟩⟩
    obtain ⟨c1, h1⟩ := hflag
    have hbeg : ∃ c2, exLogged.beginIteration c1 (half :: half :: t) = (.ok (), c2, half :: half :: t) :=
      ⟨_, rfl⟩
    obtain ⟨c2, h2⟩ := hbeg
    obtain ⟨ev, c3, h3⟩ := exNext c2 t
    exact ⟨ev, _, (iteration_ok exCfg).2 ⟨c1, c2, c3, _, _, h1, h2, h3, rfl⟩⟩
  obtain ⟨ev1, c1, h1⟩ := hit (Chain.init (0 : ℤ) [] 1 ([] : List ℕ)) [half, half]
  obtain ⟨ev2, c2, h2⟩ := hit c1 []
  have h : Chain.advance exCfg 0 1 exLogged.beginIteration exLogged.endIteration 2
      (Chain.init (0 : ℤ) [] 1 ([] : List ℕ)) [half, half, half, half] = (.ok [ev1, ev2], c2, []) :=
    (advance_succ_ok exCfg).2 ⟨ev1, [ev2], c1, _, rfl, h1,
      (advance_succ_ok exCfg).2 ⟨ev2, [], c2, _, rfl, h2, rfl⟩⟩
  refine ⟨[ev1, ev2], c2, [], h, ?_⟩
  have := C44_iterations_partial exCfg (fun w => w) exLogged [0] [10] [[1], [2]] [[11]] (logNat_writes 0)
    (logNat_writes 10) (.cons (logNat_writes 1) (.cons (logNat_writes 2) .nil))
    (.cons (logNat_writes 11) .nil) 0 1 2 _ _ _ _ _ h
  rw [this]
  rfl

/-- A function registered with `add_on_end_advance_chain` that would change the world, and a run that
completes without calling it. -/
example : ∃ evs s' t', inversionRun
    (vanilla { (noHooks : SamplerDef ℤ (List ℤ) Unit) with
      extraEndAdvance := [Act.modify fun s => { s with chains := [] }] })
    (vanillaRun exCfg exPar { (noHooks : SamplerDef ℤ (List ℤ) Unit) with
      extraEndAdvance := [Act.modify fun s => { s with chains := [] }] } 1 0 1) exSamp [] =
      (.ok evs, s', t') ∧ s'.chains.length = 2 := by
  obtain ⟨evs, s', t', h⟩ := exVanilla
  obtain ⟨h1, -⟩ := C36_iterations exCfg exPar noHooks (by simp [noHooks]) (by simp [noHooks])
    1 0 1 exSamp s' [] t' evs h
  exact ⟨evs, s', t', Act.bind_ok.2 ⟨(), exSamp, [], rfl, h⟩, h1⟩

end Examples

end BB.Props

import Verif.Props.C42_Annealing

/-!
# C43: calling `run` again
-/

namespace BB.Props

open BB BB.Lemmas BB.Spec

variable {S σ E : Type}

/-- One run of the plain sampler, from any state of the chains: `n` iterations, counted on from those
already made, and saving according to the schedule for these iteration numbers. -/
theorem vanilla_run {α : Type} (cfg : ChainCfg S σ) (proj : σ → List α) (vals : S → List α)
    (hsave : ∀ s st st', cfg.save s st = (.ok (), st') → proj st' = proj st ++ vals s)
    (par : Par) (d : SamplerDef S σ E) (hd : QuietHooks d) (n b sv : ℤ) (s s' : Samp S σ E)
    (t t' : List Draw) (evs : List (List (Event S)))
    (h : vanillaRun cfg par d n b sv s t = (.ok evs, s', t'))
    (j : ℕ) (c : Chain S σ E) (hj : s.chains[j]? = some c) :
    ∃ (ev : List (Event S)) (c' : Chain S σ E), evs[j]? = some ev ∧ s'.chains[j]? = some c' ∧
      ev.length = n.toNat ∧ c'.total = c.total + n.toNat ∧
      proj c'.saved = proj c.saved ++ (dueStates b sv (c.total + 1) ev).flatMap vals := by
  have hE := samp_each (vanillaRun_ok.1 h)
  obtain ⟨l, c', w, t1, t2, e1, e2, e3⟩ := hE.get hj
  have hb : BeginHook (vanilla d).beginIteration := QuietHooks.begin (d := vanilla d) hd skip_begin
  have he : EndHook (vanilla d).endIteration := QuietHooks.end (d := vanilla d) hd skip_end
  have hlen := advance_total cfg (fun c t => (hb c t).2.1) (fun c t => (he c t).2) e3
  refine ⟨l, c', e1, e2, hlen.2, hlen.1, ?_⟩
  have := C06_C07_saved cfg proj vals hsave b sv _ _ hb he _ _ _ _ _ _ e3
  exact this

/-- C43 for `VanillaSampler`: two runs of `inversion.run` with the same sampler (the second one
initializes the sampler again, on the chains as the first one left them) make `n1 + n2` iterations and
save according to the schedule throughout; the iteration numbers of the second run go on where the
first one stopped.  Missing with respect to the full property: the other two samplers, for which it is
false, see below. -/
theorem C43_vanilla_partial {α : Type} (cfg : ChainCfg S σ) (proj : σ → List α) (vals : S → List α)
    (hsave : ∀ s st st', cfg.save s st = (.ok (), st') → proj st' = proj st ++ vals s)
    (par : Par) (d : SamplerDef S σ E) (hi : d.extraInit = []) (hd : QuietHooks d)
    (n1 b1 sv1 n2 b2 sv2 : ℤ) (s s1 s2 : Samp S σ E) (t t1 t2 : List Draw)
    (evs1 evs2 : List (List (Event S)))
    (h1 : inversionRun (vanilla d) (vanillaRun cfg par d n1 b1 sv1) s t = (.ok evs1, s1, t1))
    (h2 : inversionRun (vanilla d) (vanillaRun cfg par d n2 b2 sv2) s1 t1 = (.ok evs2, s2, t2))
    (j : ℕ) (c : Chain S σ E) (hj : s.chains[j]? = some c) :
    ∃ (ev1 ev2 : List (Event S)) (c' : Chain S σ E), evs1[j]? = some ev1 ∧ evs2[j]? = some ev2 ∧
      s2.chains[j]? = some c' ∧ ev1.length = n1.toNat ∧ ev2.length = n2.toNat ∧
      c'.total = c.total + n1.toNat + n2.toNat ∧
      proj c'.saved = proj c.saved ++ (dueStates b1 sv1 (c.total + 1) ev1).flatMap vals ++
        (dueStates b2 sv2 (c.total + n1.toNat + 1) ev2).flatMap vals := by
  have hinit : ∀ (s : Samp S σ E) t, (vanilla d).initialize s t = (.ok (), s, t) := by
    intro s t
    refine Act.bind_ok.2 ⟨(), s, t, rfl, ?_⟩
    have : (vanilla d).extraInit = [] := hi
    rw [this]
    rfl
  have hrun : ∀ {n b sv : ℤ} {s s' : Samp S σ E} {t t' : List Draw} {evs : List (List (Event S))},
      inversionRun (vanilla d) (vanillaRun cfg par d n b sv) s t = (.ok evs, s', t') →
      vanillaRun cfg par d n b sv s t = (.ok evs, s', t') := by
    intro n b sv s s' t t' evs h
    obtain ⟨_, sa, ta, e1, e2⟩ := Act.bind_ok.1 h
    rw [hinit] at e1
    simp only [Prod.mk.injEq] at e1
    obtain ⟨-, rfl, rfl⟩ := e1
    exact e2
  obtain ⟨ev1, c1, a1, a2, a3, a4, a5⟩ :=
    vanilla_run cfg proj vals hsave par d hd n1 b1 sv1 s s1 t t1 evs1 (hrun h1) j c hj
  obtain ⟨ev2, c2, b1', b2', b3, b4, b5⟩ :=
    vanilla_run cfg proj vals hsave par d hd n2 b2 sv2 s1 s2 t1 t2 evs2 (hrun h2) j c1 a2
  exact ⟨ev1, ev2, c2, a1, b1', b2', a3, b3, by rw [b4, a4], by rw [b5, a4, a5]⟩

/-- C43 is false for `ParallelTempering`: when the chains have made at least as many iterations as are
asked for (for instance by a first run with the same number), `run` makes no iteration and saves
nothing. -/
theorem C43_tempering_false {α : Type} (cfg : ChainCfg S σ) (proj : σ → List α) (vals : S → List α)
    (hsave : ∀ s st st', cfg.save s st = (.ok (), st') → proj st' = proj st ++ vals s)
    (fr tmax : ℝ) (par : Par) (d : SamplerDef S σ E)
    (hd : QuietHooks d) (sw n b sv : ℤ) (fuel : ℕ) (s s' : Samp S σ E)
    (t t' : List Draw) (evs : List (List (Event S))) (m : ℕ) (hm : ∀ c ∈ s.chains, c.total = m)
    (hn : n ≤ m)
    (h : ptRun cfg par (tempering cfg fr tmax d) sw n b sv fuel s t = (.ok (some evs), s', t'))
    (j : ℕ) (c : Chain S σ E) (hj : s.chains[j]? = some c) :
    evs[j]? = some [] ∧ ∃ c', s'.chains[j]? = some c' ∧ c'.total = c.total ∧
      proj c'.saved = proj c.saved := by
  cases fuel with
  | zero => simp [ptRun] at h
  | succ fuel =>
    rw [ptRun_succ] at h
    match hc : s.chains.head? with
    | none => rw [hc] at h; simp at h
    | some c0 =>
      rw [hc] at h
      simp only at h
      have hc0 : c0.total = m := hm c0 (List.mem_of_mem_head? hc)
      rw [hc0] at h
      match ha : (tempering cfg fr tmax d).advanceChain cfg par (ptIterations sw n m)
          (ptBurnin sw b m) sv s t with
      | (.error e, s1, t1) => rw [ha] at h; simp at h
      | (.ok evs1, s1, t1) =>
        rw [ha] at h
        simp only at h
        rw [if_pos hn] at h
        simp only [Prod.mk.injEq, Except.ok.injEq, Option.some.injEq] at h
        obtain ⟨rfl, rfl, rfl⟩ := h
        have e0 : (ptIterations sw n m).toNat = 0 := by unfold ptIterations; omega
        obtain ⟨ev, c', f1, f2, f3, f4⟩ := batch_saved proj vals hsave hd hm ha j c hj
        have ht := batch_total hd.total hm ha c' (List.mem_of_getElem? f2)
        rw [e0] at f3 ht
        have : ev = [] := List.length_eq_zero_iff.1 f3
        subst this
        exact ⟨f1, c', f2, by rw [ht, hm c (List.mem_of_getElem? hj)]; rfl,
          by simpa [dueStates] using f4⟩

/-- C43 is false for `SimulatedAnnealing`: when the chains have made more iterations than the length of
the burn-in (for instance by a first run), the new run goes on at the initial temperature throughout
and saves nothing. -/
theorem C43_annealing_false {α : Type} (cfg : ChainCfg S σ) (proj : σ → List α) (vals : S → List α)
    (hsave : ∀ s st st', cfg.save s st = (.ok (), st') → proj st' = proj st ++ vals s)
    (par : Par) (d : SamplerDef S σ E) (hi : d.extraInit = []) (hd : Harmless d) (hq : QuietHooks d)
    (T0 : ℝ) (hT : T0 ≠ 1) (rate : ℝ) (n b sv : ℤ) (s s' : Samp S σ E) (t t' : List Draw)
    (evs : List (List (Event S))) (hm : ∀ c ∈ s.chains, b < c.total)
    (h : inversionRun (annealing cfg T0 rate b d) (saRun cfg par d T0 n b sv) s t = (.ok evs, s', t'))
    (j : ℕ) (c : Chain S σ E) (hj : s.chains[j]? = some c) :
    ∃ (ev : List (Event S)) (c' : Chain S σ E), evs[j]? = some ev ∧ s'.chains[j]? = some c' ∧
      ev.length = n.toNat ∧ (∀ e ∈ ev, e.temp = T0) ∧ proj c'.saved = proj c.saved := by
  classical
  obtain ⟨_, s1, t1, h1, h2⟩ := Act.bind_ok.1 h
  have hs1 : s1 = { s with chains := s.chains.map (fun c : Chain S σ E => c.setTemp cfg T0) } := by
    obtain ⟨_, s2, t2, g1, g2⟩ := Act.bind_ok.1 h1
    have : (annealing cfg T0 rate b d).extraInit = [] := hi
    rw [this] at g2
    change (Except.ok (), s2, t2) = _ at g2
    change (Except.ok (), { s with chains := s.chains.map (fun c : Chain S σ E => c.setTemp cfg T0) }, t) = _ at g1
    simp only [Prod.mk.injEq] at g1 g2
    obtain ⟨-, rfl, -⟩ := g1
    exact g2.2.1.symm
  subst hs1
  obtain ⟨-, hE⟩ := saRun_each h2
  obtain ⟨l, c', w, u1, u2, e1, e2, e3⟩ := hE.get (k := j) (c := c.setTemp cfg T0) (by
    simp only [List.getElem?_map, hj, Option.map_some])
  obtain ⟨i1, i2, i3⟩ := sa_advance hd e3
  have hb := hm c (List.mem_of_getElem? hj)
  have hall : ∀ e ∈ l, e.temp = T0 := by
    intro e he
    obtain ⟨k, hk⟩ := List.mem_iff_getElem?.1 he
    have := i3 k e hk
    rw [if_neg, if_neg] at this
    · exact this
    · simp only [Chain.setTemp]; omega
    · simp only [Chain.setTemp]; push_cast; omega
  refine ⟨l, c', e1, e2, i1, hall, ?_⟩
  have := C06_C07_saved cfg proj vals hsave b sv _ _ (sa_quiet hq).1 (sa_quiet hq).2 _ _ _ _ _ _ e3
  rw [this]
  have hnil : ∀ (i : ℕ) (l : List (Event S)), (∀ e ∈ l, e.temp = T0) → dueStates b sv i l = [] := by
    intro i l
    induction l generalizing i with
    | nil => intro _; rfl
    | cons e l ih =>
      intro hl
      rw [dueStates, ih _ fun e he => hl e (by simp [he]), hl e (by simp), if_neg (by tauto)]
      rfl
  rw [hnil _ _ hall]
  simp [Chain.setTemp]

/-! ### Instances -/

/-- The second of two runs of parallel tempering with five iterations each: nothing happens. -/
example : ∃ fuel1 fuel2 evs1 evs2 s1 s2 t1 t1' t2 t2',
    ptRun exCfg (exPar2 5) (tempering exCfg 0 1 noHooks) 2 5 0 1 fuel1 exSamp t1 =
      (.ok (some evs1), s1, t1') ∧ (∀ c ∈ s1.chains, c.total = 5) ∧
    ptRun exCfg (exPar2 5) (tempering exCfg 0 1 noHooks) 2 5 0 1 fuel2 s1 t2 =
      (.ok (some evs2), s2, t2') := by
  obtain ⟨fuel1, evs1, s1, t1, t1', h1, l1, e1, -⟩ := exTemperingFrom 5 2 5 0 1 (by norm_num) le_rfl
    (by norm_num) 0 exSamp rfl (by intro c hc; simp [exSamp, Chain.init] at hc; rw [hc]) exSamp_total
  have ht := C37_exact exCfg 0 1 _ noHooks exQuiet.total 2 0 1 5 (by norm_num) fuel1 exSamp s1 t1 t1' evs1
    exSamp_total h1
  obtain ⟨fuel2, evs2, s2, t2, t2', h2, -⟩ := exTemperingFrom 5 2 5 0 1 (by norm_num) le_rfl
    (by norm_num) 5 s1 l1 e1 ht
  exact ⟨fuel1, fuel2, evs1, evs2, s1, s2, t1, t1', t2, t2', h1, ht, h2⟩

/-- The second of two runs of simulated annealing. -/
example : ∃ evs1 evs2 s1 s2,
    saRun exCfg (exPar2 5) noHooks 16 (5 : ℕ) 2 1 exSamp [] = (.ok evs1, s1, []) ∧
    (∀ c ∈ s1.chains, (2 : ℤ) < c.total) ∧
    inversionRun (annealing exCfg 16 0 2 noHooks) (saRun exCfg (exPar2 5) noHooks 16 (5 : ℕ) 2 1) s1 [] =
      (.ok evs2, s2, []) := by
  obtain ⟨evs1, s1, h1⟩ := exAnnealRun 16 (by norm_num) 5 2 1 (by norm_num) exSamp rfl
  obtain ⟨-, hE⟩ := saRun_each h1
  have hl : s1.chains.length = 2 := hE.lengths.2
  obtain ⟨evs2, s2, h2⟩ := exAnnealRun 16 (by norm_num) 5 2 1 (by norm_num)
    { s1 with chains := s1.chains.map (fun c => c.setTemp exCfg 16) } (by simpa using hl)
  refine ⟨evs1, evs2, s1, s2, h1, ?_, Act.bind_ok.2 ⟨(), _, [], rfl, h2⟩⟩
  have := hE.rel (R := fun c c' : Chain ℤ (List ℤ) Unit => c'.total = c.total + 5)
    (fun c w t a c' t' h => (sa_advance exHarmless h).2.1)
  intro c' hc'
  obtain ⟨j, hj⟩ := List.mem_iff_getElem?.1 hc'
  have hlt : j < exSamp.chains.length := by
    rw [this.length_eq]; exact (List.getElem?_eq_some_iff.1 hj).1
  obtain ⟨c1, e1, e2⟩ := forall₂_get this (k := j) (a := exSamp.chains[j]) (by simp [hlt])
  rw [hj] at e1
  obtain rfl := Option.some.inj e1
  rw [e2]
  push_cast
  omega

end BB.Props

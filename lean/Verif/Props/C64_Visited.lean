import Verif.Lemmas.Visited

/-!
# C64: under every sampler the chains only visit states of the set `Visited`

This is what makes the properties stated for all states of that set (C10-C17 and others) properties of all runs.
-/

namespace BB.Props

open BB BB.Spec BB.Lemmas

variable {S σ E : Type} (cfg : ChainCfg S σ)

/-- What is claimed of the run of an inversion: if the current states of the chains are visited states at the
beginning then they are at the end, even if something is raised on the way, and so are all states recorded in between. -/
def StaysVisited {α : Type} (start : S → Prop) (run : Act (Samp S σ E) α)
    (events : α → List (List (Event S))) : Prop :=
  ∀ s t, AllCur (Visited cfg start) s →
    AllCur (Visited cfg start) (run s t).2.1 ∧
    ∀ a s' t', run s t = (.ok a, s', t') → ∀ l ∈ events a, EvAll (Visited cfg start) l

theorem staysVisited_of {α : Type} {start : S → Prop} {d : SamplerDef S σ E}
    (hd : DefKeeps (Visited cfg start) d) {run : Act (Samp S σ E) α}
    {events : α → List (List (Event S))}
    (h1 : Act.Keeps run (fun s s' => AllCur (Visited cfg start) s → AllCur (Visited cfg start) s'))
    (h2 : ∀ s t a s' t', AllCur (Visited cfg start) s → run s t = (.ok a, s', t') →
      ∀ l ∈ events a, EvAll (Visited cfg start) l) :
    StaysVisited cfg start (inversionRun d run) events := by
  intro s t h0
  refine ⟨?_, ?_⟩
  · exact Act.Keeps.bind (R := fun s s' => AllCur (Visited cfg start) s → AllCur (Visited cfg start) s')
      (fun _ _ _ h1 h2 h => h2 (h1 h)) hd.init (fun _ => h1) s t h0
  · intro a s' t' h
    obtain ⟨_, s1, t1, h3, h4⟩ := Act.bind_ok.1 h
    exact h2 s1 t1 a s' t' (hd.init.ok h3 h0) h4

/-- C64, plain sampling. -/
theorem C64_vanilla (start : S → Prop) (d : SamplerDef S σ E) (hd : HooksKeep (Visited cfg start) d)
    (par : Par) (n b sv : ℤ) :
    StaysVisited cfg start (inversionRun (vanilla d) (vanillaRun cfg par d n b sv)) id :=
  staysVisited_of cfg (vanilla_defKeeps hd)
    (advanceChain_allCur cfg (closed_visited cfg start) (vanilla_defKeeps hd) par n b sv)
    fun _ _ _ _ _ h0 h =>
      advanceChain_events cfg (closed_visited cfg start) (vanilla_defKeeps hd) h h0

/-- C64, parallel tempering. -/
theorem C64_tempering (start : S → Prop) (d : SamplerDef S σ E) (hd : HooksKeep (Visited cfg start) d)
    (par : Par) (fr tmax : ℝ) (sw n b sv : ℤ) (fuel : ℕ) :
    StaysVisited cfg start
      (inversionRun (tempering cfg fr tmax d) (ptRun cfg par (tempering cfg fr tmax d) sw n b sv fuel))
      (fun o => o.getD []) :=
  staysVisited_of cfg (tempering_defKeeps cfg (closed_visited cfg start) hd fr tmax)
    (ptRun_allCur cfg (closed_visited cfg start)
      (tempering_defKeeps cfg (closed_visited cfg start) hd fr tmax) par sw n b sv fuel)
    fun s t o s' t' h0 h => by
      match o with
      | none => simp
      | some evs =>
        exact ptRun_events cfg (closed_visited cfg start)
          (tempering_defKeeps cfg (closed_visited cfg start) hd fr tmax) h h0

/-- C64, simulated annealing. -/
theorem C64_annealing (start : S → Prop) (d : SamplerDef S σ E) (hd : HooksKeep (Visited cfg start) d)
    (par : Par) (T0 rate : ℝ) (b0 : ℤ) (n b sv : ℤ) :
    StaysVisited cfg start (inversionRun (annealing cfg T0 rate b0 d) (saRun cfg par d T0 n b sv)) id :=
  staysVisited_of cfg (annealing_defKeeps cfg (closed_visited cfg start) hd T0 rate b0)
    (by
      unfold saRun
      split
      · exact fun s t h => h
      · exact advanceChain_allCur cfg (closed_visited cfg start)
          (annealing_defKeeps cfg (closed_visited cfg start) hd _ _ _) par n b sv)
    (by
      intro s t a s' t' h0 h
      unfold saRun at h
      split at h
      · simp [Act.throw] at h
      · exact advanceChain_events cfg (closed_visited cfg start)
          (annealing_defKeeps cfg (closed_visited cfg start) hd _ _ _) h h0)

/-- The hypotheses are met: no functions registered, and chains that begin with a starting state. -/
example (start : S → Prop) (s0 : S) (h0 : start s0) (store : σ) (w : E) :
    HooksKeep (Visited cfg start) (⟨Act.skip, Act.skip, Act.skip, Act.skip, [], [], [], []⟩ :
      SamplerDef S σ E) ∧
    AllCur (Visited cfg start) (⟨[Chain.init s0 store 1 w, Chain.init s0 store 1 w], w, 0⟩ : Samp S σ E) := by
  refine ⟨⟨?_, ?_, ?_⟩, ?_⟩
  · intro f hf; simp at hf
  · intro f hf; simp at hf
  · intro f hf; simp at hf
  · intro c hc
    have : c = Chain.init s0 store 1 w := by simpa using hc
    subst this
    exact .start h0

end BB.Props

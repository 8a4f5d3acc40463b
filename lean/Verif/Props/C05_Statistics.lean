import Verif.Lemmas.Statistics

/-!
# C05: acceptance statistics are consistent
-/

namespace BB.Props

open BB BB.Spec BB.Lemmas

variable {S σ E : Type}

/-- What is assumed about the functions given to the chain: the statistics left in a proposal by a
perturbation function whose name starts with `ParamSpacePerturbation` are shares adding up to one
(the library writes exactly one share, `perturbations/_param_space.py` line 75, see
`C25_statistics`), and the likelihood does not alter them. -/
structure GoodStats (cfg : ChainCfg S σ) : Prop where
  perturb : ∀ name f, (name, f) ∈ cfg.perturbs → name.startsWith "ParamSpacePerturbation" = true →
    ∀ s t new lpr t', f s t = (.ok (new, lpr), t') → ∀ st, cfg.stats new = .ok st → Shares st
  llr : ∀ a b T, cfg.stats (cfg.llr a b T).2.2 = cfg.stats b

/-- A hook that does not write to the statistics. -/
def StatsHook (m : Act (Chain S σ E) Unit) : Prop :=
  Act.Keeps m fun c c' => c'.proposed = c.proposed ∧ c'.accepted = c.accepted ∧
    c'.total = c.total ∧ c'.accTotal = c.accTotal

/-- The histories of a chain: it is created, advanced any number of times (with any arguments, any
hooks that leave the statistics alone, and whether or not the call raises), and modified from outside
in ways that leave the statistics alone (change of temperature, exchange of states, ...). -/
inductive History (cfg : ChainCfg S σ) : Chain S σ E → Prop where
  | init (s : S) (store : σ) (temp : ℝ) (w : E) : History cfg (Chain.init s store temp w)
  | advance {c : Chain S σ E} (b s : ℤ) (bi ei : Act (Chain S σ E) Unit) (n : ℕ) (t : List Draw) :
      StatsHook bi → StatsHook ei → History cfg c →
      History cfg (Chain.advance cfg b s bi ei n c t).2.1
  | outside {c c' : Chain S σ E} : c'.proposed = c.proposed → c'.accepted = c.accepted →
      c'.total = c.total → c'.accTotal = c.accTotal → History cfg c → History cfg c'

theorem History.inv (cfg : ChainCfg S σ) (hg : GoodStats cfg) {c : Chain S σ E}
    (h : History cfg c) : StatsInv c.proposed c.accepted c.total c.accTotal := by
  induction h with
  | init s store temp w => exact StatsInv.init
  | @advance c b s bi ei n t hb he _ ih =>
    refine (advance_inv cfg (P := fun c : Chain S σ E =>
      StatsInv c.proposed c.accepted c.total c.accTotal) (fun c x h => h) ?_ ?_
      (next_inv cfg ?_) n) c t ih
    · intro c t h
      obtain ⟨h1, h2, h3, h4⟩ := hb c t
      simp only [h1, h2, h3, h4]; exact h
    · intro c t h
      obtain ⟨h1, h2, h3, h4⟩ := he c t
      simp only [h1, h2, h3, h4]; exact h
    · exact attempt_stats cfg (G := fun s => ∀ st, cfg.stats s = .ok st → Shares st)
        (fun s h => h) (fun nf hnf hps s t new lpr t' h => hg.perturb nf.1 nf.2 hnf hps s t new lpr
          t' h) (fun a b T h st hst => h st (by rw [← hg.llr a b T]; exact hst))
  | outside h1 h2 h3 h4 _ ih => rw [h1, h2, h3, h4]; exact ih

/-- C05: consistency at every point of every history. -/
theorem C05_consistent (cfg : ChainCfg S σ) (hg : GoodStats cfg) (c : Chain S σ E)
    (h : History cfg c) :
    (∀ name, weightOf c.accepted name ≤ weightOf c.proposed name) ∧
    (∀ name k, 0 ≤ weightSub c.accepted name k ∧
      weightSub c.accepted name k ≤ weightSub c.proposed name k) ∧
    weightAll c.proposed = c.total ∧ weightAll c.accepted = c.accTotal := by
  have inv := h.inv cfg hg
  refine ⟨?_, ?_, inv.total, inv.accTotal⟩
  · intro name
    unfold weightOf
    match hp : dget c.proposed name with
    | none => rw [inv.par.dget_none hp]
    | some s =>
      obtain ⟨s', hs', he⟩ := inv.par.dget_some hp
      rw [hs']
      match s, s', he with
      | .count n, .count m, he => simp only [weight]; exact_mod_cast he.2
      | .sub d, .sub e, he =>
        simp only [weight]
        have : ∀ {d e : List (String × ℝ)}, Par (fun _ (v w : ℝ) => 0 ≤ w ∧ w ≤ v) d e →
            (e.map (·.2)).sum ≤ (d.map (·.2)).sum := by
          intro d e h
          induction h with
          | nil => simp
          | cons h _ ih => simp only [List.map_cons, List.sum_cons]; linarith [h.2.2]
        exact this he.2
  · intro name k
    unfold weightSub
    match hp : dget c.proposed name with
    | none => rw [inv.par.dget_none hp]; simp
    | some s =>
      obtain ⟨s', hs', he⟩ := inv.par.dget_some hp
      rw [hs']
      match s, s', he with
      | .count n, .count m, he => simp
      | .sub d, .sub e, he =>
        simp only
        match hd : dget d k with
        | none => rw [he.2.dget_none hd]; simp
        | some v =>
          obtain ⟨w, hw, hw1, hw2⟩ := he.2.dget_some hd
          rw [hw]; exact ⟨hw1, hw2⟩

/-- C05: what each type's numbers count.  After `n` iterations the number recorded for a type (for a
parameter-space perturbation: the sum over its sub-types) has grown by the number of its proposals,
and the accepted one by the number of its accepted proposals. -/
theorem C05_counts (cfg : ChainCfg S σ) (hg : GoodStats cfg) (c : Chain S σ E)
    (hist : History cfg c) (b s : ℤ) (bi ei : Act (Chain S σ E) Unit)
    (hb : StatsHook bi) (he : StatsHook ei) (n : ℕ) (t t' : List Draw) (c' : Chain S σ E)
    (evs : List (Event S))
    (h : Chain.advance cfg b s bi ei n c t = (.ok evs, c', t')) (name : String) :
    weightOf c'.proposed name = weightOf c.proposed name +
        (evs.filter (fun ev => ev.name = name)).length ∧
      weightOf c'.accepted name = weightOf c.accepted name +
        (evs.filter (fun ev => ev.name = name ∧ ev.acc)).length := by
  have inv : Par Entry c.proposed c.accepted := (hist.inv cfg hg).par
  clear hist
  induction n generalizing c t evs with
  | zero =>
    rw [advance_zero] at h
    simp only [Prod.mk.injEq, Except.ok.injEq] at h
    obtain ⟨rfl, rfl, rfl⟩ := h
    simp
  | succ n ih =>
    rw [advance_succ_ok] at h
    obtain ⟨ev, evs', c1, t1, rfl, h1, h2⟩ := h
    obtain ⟨c2, c3, c4, t2, t3, b1, b2, b3, b4⟩ := (iteration_ok cfg).1 h1
    have e1 := ((setFlag_ok).1 b1).2.2
    obtain ⟨p1, p2, -, -⟩ := hb.ok b2
    have e3 := (next_effect cfg b3).stats
    obtain ⟨q1, q2, -, -⟩ := he.ok b4
    have hp : c3.proposed = c.proposed := by rw [p1, e1]
    have ha : c3.accepted = c.accepted := by rw [p2, e1]
    rw [hp, ha] at e3
    obtain ⟨s1, f, t4, new, lpr, t5, hmem, hprop, hev⟩ := next_event cfg b3
    have hgood : PS ev.name → ∀ st, cfg.stats ev.new = .ok st → Shares st := by
      intro hps st hst
      rcases hev with ⟨hev, -⟩ | ⟨hev, -⟩
      · rw [hev] at hst
        exact hg.perturb ev.name f hmem hps _ _ _ _ _ hprop st hst
      · rw [hev, hg.llr] at hst
        exact hg.perturb ev.name f hmem hps _ _ _ _ _ hprop st hst
    obtain ⟨i1, -, -, i2, i3, i4⟩ := newStats_inv cfg hgood inv e3
    rw [← q1, ← q2] at i1
    obtain ⟨j1, j2⟩ := ih c1 t1 evs' h2 i1
    rw [j1, j2, q1, q2]
    by_cases hname : ev.name = name
    · subst hname
      rw [i2, i3]
      cases hacc : ev.acc
      · simp [hacc]; ring
      · simp [hacc]; constructor <;> ring
    · have := i4 name (fun h => hname h.symm)
      rw [this.1, this.2]
      simp [hname]

/-- The hypotheses are met by a configuration with a parameter-space perturbation that reports two
kinds of births, and a plain one. -/
noncomputable def exCfg5 : ChainCfg ℕ Unit where
  perturbs := [("ParamSpacePerturbation(a)", fun s t => (.ok (s + 1, .fin 0), t)),
    ("UserPerturbation", fun s t => (.ok (s + 2, .fin 0), t))]
  weights := [1, 1]
  llr := fun a b _ => (.ok (.fin 0), a, b)
  stats := fun s => if s % 2 = 0 then .ok [("Birth(a)", 1)] else .ok [("Birth(a)", 1/2), ("Birth(b)", 1/2)]
  setTemp := fun s _ => s
  save := fun _ l => (.ok (), l)

theorem exCfg5_good : GoodStats exCfg5 where
  perturb := by
    intro name f _ _ s t new lpr t' _ st hst
    simp only [exCfg5] at hst
    split at hst
    · injection hst with hst; subst hst; constructor <;> simp
    · injection hst with hst; subst hst; constructor
      · simp
      · norm_num
  llr := fun _ _ _ => rfl

example (t : List Draw) (n : ℕ) :
    weightAll (Chain.advance exCfg5 0 1 Act.skip Act.skip n (Chain.init 0 () 1 ()) t).2.1.proposed =
      (Chain.advance exCfg5 0 1 Act.skip Act.skip n (Chain.init 0 () 1 ()) t).2.1.total :=
  (C05_consistent exCfg5 exCfg5_good _ (.advance 0 1 Act.skip Act.skip n t
    (fun _ _ => ⟨rfl, rfl, rfl, rfl⟩) (fun _ _ => ⟨rfl, rfl, rfl, rfl⟩) (.init 0 () 1 ()))).2.2.1

end BB.Props

import Verif.Lemmas.Samplers
import Verif.Props.C39_Temperatures

/-!
# C42: the temperatures of simulated annealing
-/

namespace BB.Props

open BB BB.Lemmas BB.Spec

variable {S σ E : Type}

/-- The temperature at iteration `k`, counted from 0: it goes geometrically from `T0` to 1 in `b`
iterations. -/
noncomputable def coolTemp (T0 : ℝ) (b : ℤ) (k : ℕ) : ℝ :=
  if (k : ℤ) < b then T0 ^ (1 - (k : ℝ) / b) else 1

/-- The registered functions change neither the temperature nor the iteration counter. -/
def Harmless (d : SamplerDef S σ E) : Prop :=
  (∀ f ∈ d.extraBegin, Act.Keeps f fun c c' => c'.total = c.total ∧ c'.temp = c.temp) ∧
    ∀ f ∈ d.extraEnd, Act.Keeps f fun c c' => c'.total = c.total ∧ c'.temp = c.temp

theorem cool_eq {T0 : ℝ} (hT : 0 < T0) (b : ℤ) (k : ℕ) :
    T0 * Real.exp (-(Real.log T0 / b) * k) = T0 ^ (1 - (k : ℝ) / b) := by
  rw [Real.rpow_def_of_pos hT]
  nth_rewrite 1 [← Real.exp_log hT]
  rw [← Real.exp_add]
  congr 1
  ring

theorem runAll_total_temp {fs : List (Act (Chain S σ E) Unit)}
    (h : ∀ f ∈ fs, Act.Keeps f fun c c' : Chain S σ E => c'.total = c.total ∧ c'.temp = c.temp) :
    Act.Keeps (runAll fs) fun c c' : Chain S σ E => c'.total = c.total ∧ c'.temp = c.temp :=
  runAll_keeps (R := fun c c' : Chain S σ E => c'.total = c.total ∧ c'.temp = c.temp)
    (fun _ => ⟨rfl, rfl⟩) (fun _ _ _ h1 h2 => ⟨h2.1.trans h1.1, h2.2.trans h1.2⟩) h

theorem sa_begin {cfg : ChainCfg S σ} {T0 rate : ℝ} {b : ℤ} {d : SamplerDef S σ E} (hd : Harmless d)
    {c c' : Chain S σ E} {t t' : List Draw}
    (h : (annealing cfg T0 rate b d).beginIteration c t = (.ok (), c', t')) :
    c'.total = c.total ∧ c'.temp = (if (c.total : ℤ) < b then T0 * Real.exp (-rate * c.total)
      else if (c.total : ℤ) = b then 1 else c.temp) := by
  obtain ⟨_, c1, t1, h1, h2⟩ := Act.bind_ok.1 h
  have hk := (runAll_total_temp hd.1).ok h2
  change (Except.ok (), (if (c.total : ℤ) < b then c.setTemp cfg (T0 * Real.exp (-rate * c.total))
    else if (c.total : ℤ) = b then c.setTemp cfg 1 else c), t) = _ at h1
  simp only [Prod.mk.injEq] at h1
  obtain ⟨-, rfl, -⟩ := h1
  rw [hk.1, hk.2]
  split
  · exact ⟨rfl, rfl⟩
  · split
    · exact ⟨rfl, rfl⟩
    · exact ⟨rfl, rfl⟩

theorem sa_end {cfg : ChainCfg S σ} {T0 rate : ℝ} {b : ℤ} {d : SamplerDef S σ E} (hd : Harmless d)
    {c c' : Chain S σ E} {t t' : List Draw}
    (h : (annealing cfg T0 rate b d).endIteration c t = (.ok (), c', t')) :
    c'.total = c.total ∧ c'.temp = c.temp := by
  obtain ⟨_, c1, t1, h1, h2⟩ := Act.bind_ok.1 h
  have hk := (runAll_total_temp hd.2).ok h2
  change (Except.ok (), c, t) = _ at h1
  simp only [Prod.mk.injEq] at h1
  obtain ⟨-, rfl, -⟩ := h1
  exact hk

/-- The temperature of an iteration, given the counter and the temperature before it. -/
theorem sa_advance {cfg : ChainCfg S σ} {T0 rate : ℝ} {b b' sv : ℤ} {d : SamplerDef S σ E}
    (hd : Harmless d) {n : ℕ} {c c' : Chain S σ E} {t t' : List Draw} {evs : List (Event S)}
    (h : Chain.advance cfg b' sv (annealing cfg T0 rate b d).beginIteration
      (annealing cfg T0 rate b d).endIteration n c t = (.ok evs, c', t')) :
    evs.length = n ∧ c'.total = c.total + n ∧
    ∀ (k : ℕ) (ev : Event S), evs[k]? = some ev →
      ev.temp = (if ((c.total + k : ℕ) : ℤ) < b then T0 * Real.exp (-rate * ((c.total + k : ℕ) : ℝ))
        else if (c.total : ℤ) ≤ b then 1 else c.temp) := by
  induction n generalizing c t evs with
  | zero =>
    rw [advance_zero] at h
    simp only [Prod.mk.injEq, Except.ok.injEq] at h
    obtain ⟨rfl, rfl, rfl⟩ := h
    simp
  | succ n ih =>
    rw [advance_succ_ok] at h
    obtain ⟨ev, evs', c1, t1, rfl, h1, h2⟩ := h
    obtain ⟨d1, d2, d3, t2, t3, g1, g2, g3, g4⟩ := (iteration_ok cfg).1 h1
    obtain ⟨-, -, rfl⟩ := setFlag_ok.1 g1
    obtain ⟨k1, k2⟩ := sa_begin hd g2
    simp only at k1 k2
    have hn := next_effect cfg g3
    obtain ⟨k3, k4⟩ := sa_end hd g4
    obtain ⟨i1, i2, i3⟩ := ih h2
    have e1 : c1.total = c.total + 1 := by rw [k3, hn.total, k1]
    have e2 : c1.temp = ev.temp := by rw [k4, hn.temp, hn.evTemp]
    have e3 := hn.evTemp.trans k2
    refine ⟨by simp [i1], by rw [i2, e1]; omega, ?_⟩
    intro k ev' hk
    cases k with
    | zero =>
      simp only [List.getElem?_cons_zero, Option.some.injEq] at hk
      subst hk
      rw [e3]
      simp only [Nat.add_zero]
      by_cases hlt : (c.total : ℤ) < b
      · rw [if_pos hlt, if_pos hlt]
      · rw [if_neg hlt, if_neg hlt]
        by_cases heq : (c.total : ℤ) = b
        · rw [if_pos heq, if_pos heq.le]
        · rw [if_neg heq, if_neg (by omega)]
    | succ k =>
      simp only [List.getElem?_cons_succ] at hk
      have := i3 k ev' hk
      rw [this, e1, show c.total + 1 + k = c.total + (k + 1) by ring]
      by_cases hlt : ((c.total + (k + 1) : ℕ) : ℤ) < b
      · rw [if_pos hlt, if_pos hlt]
      · rw [if_neg hlt, if_neg hlt, e2, e3]
        by_cases hle : (c.total : ℤ) ≤ b
        · rw [if_pos hle]
          split
          · rfl
          · rename_i hgt
            push_cast at hgt
            rw [if_neg (by omega), if_pos (by omega)]
        · rw [if_neg hle, if_neg (by push_cast; omega), if_neg (by omega), if_neg (by omega)]

theorem saRun_each {cfg : ChainCfg S σ} {par : Par} {d : SamplerDef S σ E} {T0 : ℝ} {n b sv : ℤ}
    {s s' : Samp S σ E} {t t' : List Draw} {evs : List (List (Event S))}
    (h : saRun cfg par d T0 n b sv s t = (.ok evs, s', t')) :
    ¬ (b ≠ 0 ∧ T0 ≤ 0) ∧
    Each (Chain.advance cfg b sv (annealing cfg T0 (Real.log T0 / b) b d).beginIteration
      (annealing cfg T0 (Real.log T0 / b) b d).endIteration n.toNat) s.chains evs s'.chains := by
  classical
  unfold saRun at h
  by_cases hc : b ≠ 0 ∧ T0 ≤ 0
  · rw [if_pos hc] at h
    simp [Act.throw] at h
  · rw [if_neg hc] at h
    obtain ⟨s1, t1, h1, h2⟩ := advanceChain_ok.1 h
    change (Except.ok (), s1, t1) = _ at h2
    simp only [Prod.mk.injEq] at h2
    obtain ⟨-, rfl, -⟩ := h2
    exact ⟨hc, samp_each h1⟩

/-- C42, the temperatures: in a run on fresh chains, iteration `k` (counted from 0) of every chain is
made at temperature `T0^(1-k/burnin)` during burn-in and at temperature 1 afterwards. -/
theorem C42_temperatures (cfg : ChainCfg S σ) (par : Par) (d : SamplerDef S σ E) (hd : Harmless d)
    (T0 : ℝ) (hT : 1 ≤ T0) (n b sv : ℤ) (hb : 0 ≤ b) (s s' : Samp S σ E) (t t' : List Draw)
    (evs : List (List (Event S))) (hm : ∀ c ∈ s.chains, c.total = 0)
    (h : saRun cfg par d T0 n b sv s t = (.ok evs, s', t')) :
    evs.length = s.chains.length ∧ (∀ l ∈ evs, l.length = n.toNat) ∧
    ∀ (j k : ℕ) (l : List (Event S)) (ev : Event S), evs[j]? = some l → l[k]? = some ev →
      ev.temp = coolTemp T0 b k := by
  obtain ⟨-, hE⟩ := saRun_each h
  have key : ∀ (j : ℕ) (l : List (Event S)), evs[j]? = some l → ∃ c c' w t1 t2, c ∈ s.chains ∧
      Chain.advance cfg b sv (annealing cfg T0 (Real.log T0 / b) b d).beginIteration
        (annealing cfg T0 (Real.log T0 / b) b d).endIteration n.toNat { c with world := w } t1 =
        (.ok l, c', t2) := by
    intro j l hj
    have hlt : j < s.chains.length := by
      rw [← hE.lengths.1]; exact (List.getElem?_eq_some_iff.1 hj).1
    obtain ⟨a, c', w, t1, t2, e1, -, e3⟩ := hE.get (k := j) (c := s.chains[j]) (by simp [hlt])
    rw [hj] at e1
    obtain rfl := Option.some.inj e1
    exact ⟨_, c', w, t1, t2, List.getElem_mem hlt, e3⟩
  refine ⟨hE.lengths.1, ?_, ?_⟩
  · intro l hl
    obtain ⟨j, hj⟩ := List.mem_iff_getElem?.1 hl
    obtain ⟨c, c', w, t1, t2, -, e⟩ := key j l hj
    exact (sa_advance hd e).1
  · intro j k l ev hj hk
    obtain ⟨c, c', w, t1, t2, hc, e⟩ := key j l hj
    have := (sa_advance hd e).2.2 k ev hk
    simp only [hm c hc, Nat.zero_add, Nat.cast_zero] at this
    rw [this, if_pos hb]
    unfold coolTemp
    rw [cool_eq (by linarith)]

/-- C42, the course of the temperature: it starts at `T0` (if there is a burn-in), never increases,
is above 1 before the end of burn-in (if `T0` is) and exactly 1 from then on. -/
theorem C42_course (T0 : ℝ) (hT : 1 ≤ T0) (b : ℤ) :
    (0 < b → coolTemp T0 b 0 = T0) ∧ (∀ k l, k ≤ l → coolTemp T0 b l ≤ coolTemp T0 b k) ∧
    (1 < T0 → ∀ k : ℕ, (k : ℤ) < b → 1 < coolTemp T0 b k) ∧
    (∀ k : ℕ, b ≤ k → coolTemp T0 b k = 1) := by
  have hexp : ∀ k : ℕ, (k : ℤ) < b → 0 < 1 - (k : ℝ) / b := by
    intro k hk
    have hb : (0 : ℝ) < b := by exact_mod_cast (by omega : (0 : ℤ) < b)
    have : (k : ℝ) < b := by exact_mod_cast hk
    rw [sub_pos, div_lt_one hb]
    exact this
  refine ⟨?_, ?_, ?_, ?_⟩
  · intro hb
    unfold coolTemp
    rw [if_pos (by simpa using hb)]
    simp
  · intro k l hkl
    unfold coolTemp
    by_cases hl : (l : ℤ) < b
    · rw [if_pos hl, if_pos (by omega)]
      apply Real.rpow_le_rpow_of_exponent_le hT
      have hb : (0 : ℝ) < b := by exact_mod_cast (by omega : (0 : ℤ) < b)
      have : (k : ℝ) / b ≤ (l : ℝ) / b :=
        div_le_div_of_nonneg_right (by exact_mod_cast hkl) hb.le
      linarith
    · rw [if_neg hl]
      split
      · rename_i hk
        exact Real.one_le_rpow hT (hexp k hk).le
      · exact le_rfl
  · intro hT' k hk
    unfold coolTemp
    rw [if_pos hk]
    exact Real.one_lt_rpow hT' (hexp k hk)
  · intro k hk
    unfold coolTemp
    rw [if_neg (by omega)]

/-- The hooks of simulated annealing do not interfere with the saving. -/
theorem sa_quiet {cfg : ChainCfg S σ} {T0 rate : ℝ} {b : ℤ} {d : SamplerDef S σ E}
    (hd : QuietHooks d) : BeginHook (annealing cfg T0 rate b d).beginIteration ∧
      EndHook (annealing cfg T0 rate b d).endIteration := by
  refine ⟨QuietHooks.begin (d := annealing cfg T0 rate b d) hd ?_,
    QuietHooks.end (d := annealing cfg T0 rate b d) hd skip_end⟩
  intro c t
  change (if (c.total : ℤ) < b then c.setTemp cfg (T0 * Real.exp (-rate * c.total))
    else if (c.total : ℤ) = b then c.setTemp cfg 1 else c).saved = c.saved ∧ _
  change _ ∧ (if (c.total : ℤ) < b then c.setTemp cfg (T0 * Real.exp (-rate * c.total))
    else if (c.total : ℤ) = b then c.setTemp cfg 1 else c).total = c.total ∧
    (if (c.total : ℤ) < b then c.setTemp cfg (T0 * Real.exp (-rate * c.total))
    else if (c.total : ℤ) = b then c.setTemp cfg 1 else c).saveNow = c.saveNow
  split
  · exact ⟨rfl, rfl, rfl⟩
  · split
    · exact ⟨rfl, rfl, rfl⟩
    · exact ⟨rfl, rfl, rfl⟩

/-- C42, the samples: what a chain saves are the states at the saving iterations; all of these are
made at temperature 1. -/
theorem C42_saved {α : Type} (cfg : ChainCfg S σ) (proj : σ → List α) (vals : S → List α)
    (hsave : ∀ s st st', cfg.save s st = (.ok (), st') → proj st' = proj st ++ vals s)
    (par : Par) (d : SamplerDef S σ E) (hd : Harmless d) (hq : QuietHooks d)
    (T0 : ℝ) (hT : 1 ≤ T0) (n b sv : ℤ) (hb : 0 ≤ b) (s s' : Samp S σ E) (t t' : List Draw)
    (evs : List (List (Event S))) (hm : ∀ c ∈ s.chains, c.total = 0)
    (h : saRun cfg par d T0 n b sv s t = (.ok evs, s', t'))
    (j : ℕ) (c : Chain S σ E) (hj : s.chains[j]? = some c) :
    ∃ (ev : List (Event S)) (c' : Chain S σ E), evs[j]? = some ev ∧ s'.chains[j]? = some c' ∧
      proj c'.saved = proj c.saved ++ (dueStates b sv 1 ev).flatMap vals ∧
      ∀ (k : ℕ) (e : Event S), ev[k]? = some e → Due b sv (k + 1) → e.temp = 1 := by
  obtain ⟨-, hE⟩ := saRun_each h
  obtain ⟨l, c', w, t1, t2, e1, e2, e3⟩ := hE.get hj
  refine ⟨l, c', e1, e2, ?_, ?_⟩
  · have := C06_C07_saved cfg proj vals hsave b sv _ _ (sa_quiet hq).1 (sa_quiet hq).2 _ _ _ _ _ _ e3
    simp only [hm c (List.mem_of_getElem? hj)] at this
    exact this
  · intro k e hk hdue
    have := (C42_temperatures cfg par d hd T0 hT n b sv hb s s' t t' evs hm h).2.2 j k l e e1 hk
    rw [this]
    refine (C42_course T0 hT b).2.2.2 k ?_
    have := hdue.1
    push_cast at this
    omega

/-! ### A non-trivial instance -/

theorem exNext (c : Chain ℤ (List ℤ) E) (t : List Draw) :
    ∃ ev c', Chain.next exCfg c (half :: half :: t) = (.ok ev, c', t) := by
  have key : ∀ (b sv : ℤ), sv ≠ 0 →
      (decide (b < c.total + 1 ∧ sv ∣ (c.total + 1 - b))) = c.saveNow →
      ∃ ev c', Chain.next exCfg c (half :: half :: t) = (.ok ev, c', t) := by
    intro b sv hsv hflag
    obtain ⟨ev, c', h, -⟩ := exIteration b sv hsv c t
    obtain ⟨c1, c2, c3, t2, t3, g1, g2, g3, g4⟩ := (iteration_ok exCfg).1 h
    obtain ⟨-, -, rfl⟩ := setFlag_ok.1 g1
    change (Except.ok (), _, _) = _ at g2
    change (Except.ok (), _, _) = _ at g4
    simp only [Prod.mk.injEq] at g2 g4
    obtain ⟨-, rfl, rfl⟩ := g2
    obtain ⟨-, rfl, rfl⟩ := g4
    rw [hflag] at g3
    exact ⟨ev, c3, g3⟩
  match hs : c.saveNow with
  | true => exact key c.total 1 (by norm_num) (by simp [hs])
  | false => exact key (c.total + 1) 1 (by norm_num) (by simp [hs])

/-- Simulated annealing succeeds with any number of iterations. -/
theorem exAnneal (T0 rate : ℝ) (b b' sv : ℤ) (hsv : sv ≠ 0) (n : ℕ) (c : Chain ℤ (List ℤ) Unit)
    (k : ℕ) :
    ∃ evs c', Chain.advance exCfg b' sv (annealing exCfg T0 rate b noHooks).beginIteration
      (annealing exCfg T0 rate b noHooks).endIteration n c (List.replicate (n * 2 + k) half) =
      (.ok evs, c', List.replicate k half) := by
  induction n generalizing c with
  | zero => exact ⟨[], c, by rw [Nat.zero_mul, Nat.zero_add]; rfl⟩
  | succ n ih =>
    have hflag : ∃ c1, Chain.setFlag b' sv c (List.replicate ((n + 1) * 2 + k) half) =
        (.ok (), c1, List.replicate ((n + 1) * 2 + k) half) :=
      ⟨_, (setFlag_ok).2 ⟨Or.inr hsv, rfl, rfl⟩⟩
    obtain ⟨c1, h1⟩ := hflag
    have hbeg : ∃ c2, (annealing exCfg T0 rate b noHooks).beginIteration c1
        (List.replicate ((n + 1) * 2 + k) half) =
          (.ok (), c2, List.replicate ((n + 1) * 2 + k) half) := ⟨_, rfl⟩
    obtain ⟨c2, h2⟩ := hbeg
    have e : (n + 1) * 2 + k = (n * 2 + k) + 1 + 1 := by ring
    obtain ⟨ev, c3, h3⟩ := exNext c2 (List.replicate (n * 2 + k) half)
    rw [← List.replicate_succ, ← List.replicate_succ, ← e] at h3
    obtain ⟨evs, c4, h4⟩ := ih c3
    exact ⟨ev :: evs, c4, (advance_succ_ok exCfg).2 ⟨ev, evs, c3, _, rfl,
      (iteration_ok exCfg).2 ⟨c1, c2, c3, _, _, h1, h2, h3, rfl⟩, h4⟩⟩

theorem exAnnealRun (T0 : ℝ) (hT : 0 < T0) (n : ℕ) (b sv : ℤ) (hsv : sv ≠ 0)
    (s : Samp ℤ (List ℤ) Unit) (hl : s.chains.length = 2) :
    ∃ evs s', saRun exCfg (exPar2 n) noHooks T0 n b sv s [] = (.ok evs, s', []) := by
  classical
  match hs : s.chains, hl with
  | [c1, c2], _ =>
    obtain ⟨ev1, d1, a1⟩ := exAnneal T0 (Real.log T0 / b) b b sv hsv n { c1 with world := s.world } 0
    obtain ⟨ev2, d2, b1⟩ := exAnneal T0 (Real.log T0 / b) b b sv hsv n { c2 with world := s.world } 0
    have hEach : Samp.each (exPar2 n) (Chain.advance exCfg b sv
        (annealing exCfg T0 (Real.log T0 / b) b noHooks).beginIteration
        (annealing exCfg T0 (Real.log T0 / b) b noHooks).endIteration (n : ℤ).toNat) s [] =
        (.ok [ev1, ev2], { s with chains := [d1, d2], batch := s.batch + 1 }, []) := by
      refine samp_each_par (nj := 2) rfl (by norm_num) ?_
      rw [hs, Int.toNat_natCast]
      exact advPar_cons a1 (advPar_cons b1 rfl)
    refine ⟨[ev1, ev2], { s with chains := [d1, d2], batch := s.batch + 1 }, ?_⟩
    unfold saRun
    rw [if_neg (by rintro ⟨-, h⟩; linarith)]
    exact advanceChain_ok.2 ⟨_, [], hEach, rfl⟩

theorem exHarmless : Harmless (noHooks : SamplerDef ℤ (List ℤ) Unit) :=
  ⟨by simp [noHooks], by simp [noHooks]⟩

/-- C42 applies: `T0 = 16`, four iterations of burn-in out of six. -/
example : ∃ evs s', saRun exCfg (exPar2 6) noHooks 16 (6 : ℕ) 4 1 exSamp [] = (.ok evs, s', []) ∧
    ∀ (j : ℕ) (l : List (Event ℤ)), evs[j]? = some l → l.length = 6 ∧
      ∀ ev, l[2]? = some ev → ev.temp = 4 := by
  obtain ⟨evs, s', h⟩ := exAnnealRun 16 (by norm_num) 6 4 1 (by norm_num) exSamp rfl
  obtain ⟨h1, h2, h3⟩ := C42_temperatures exCfg _ noHooks exHarmless 16 (by norm_num) _ 4 1 (by norm_num)
    exSamp s' [] [] evs exSamp_total h
  refine ⟨evs, s', h, fun j l hj => ⟨h2 l (List.mem_of_getElem? hj), fun ev hev => ?_⟩⟩
  rw [h3 j 2 l ev hj hev]
  unfold coolTemp
  norm_num

end BB.Props

import Verif.Lemmas.ProgressEval
import Verif.Lemmas.Visited
import Verif.Lemmas.Groups

/-!
# No exceptions: iterations of a chain
-/

namespace BB.Lemmas

open BB BB.Spec BB.Props

variable {E : Type} {P : State → Prop}

/-! ### the weights -/

theorem weights_nonneg {p : Problem} : ∀ w ∈ p.weights, 0 ≤ w := by
  intro w hw
  unfold Problem.weights at hw
  rcases List.mem_append.1 hw with hw | hw
  · obtain ⟨g, hg, rfl⟩ := List.mem_map.1 hw
    unfold Spaces.perts at hg
    obtain ⟨⟨k0, top0⟩, htop0, hgm⟩ := List.mem_flatMap.1 hg
    obtain ⟨sp', hsub, he⟩ := perts_S _ _ hgm
    rw [perts_sum _ _ hgm, he]
    exact List.sum_nonneg own_nonneg
  · split at hw
    · simp at hw
    · rw [List.mem_singleton] at hw
      rw [hw]; exact zero_le_one

theorem sum_pos_of_mem {l : List ℝ} (h : ∀ w ∈ l, 0 ≤ w) {x : ℝ} (hx : x ∈ l) (hp : 0 < x) : 0 < l.sum := by
  induction l with
  | nil => simp at hx
  | cons y l ih =>
    rw [List.sum_cons]
    have h1 := h y (List.mem_cons_self ..)
    have h2 : 0 ≤ l.sum := List.sum_nonneg fun w hw => h w (List.mem_cons_of_mem _ hw)
    rcases List.mem_cons.1 hx with rfl | hx
    · linarith
    · have := ih (fun w hw => h w (List.mem_cons_of_mem _ hw)) hx
      linarith

mutual
theorem ownPert_mem : ∀ (sp sp' : Space), SubSpace sp sp' → ∃ w, (sp'.ownPert, w) ∈ sp.perts
  | .mk info ps, sp', h => by
    rw [Space.perts]
    cases h with
    | refl => exact ⟨_, List.mem_append_right _ (List.mem_singleton.2 rfl)⟩
    | step hk hs =>
      obtain ⟨w, hw⟩ := ownPert_mem_L ps sp' _ _ hk hs
      exact ⟨w, List.mem_append_left _ hw⟩
theorem ownPert_mem_L : ∀ (ps : ParamList) (sp' : Space) (k : String) (sp1 : Space), (k, Param.space sp1) ∈ ps.toList →
    SubSpace sp1 sp' → ∃ w, (sp'.ownPert, w) ∈ ps.perts
  | .nil, _, _, _, hk, _ => by simp [ParamList.toList] at hk
  | .cons name p rest, sp', k, sp1, hk, hs => by
    rw [ParamList.toList] at hk
    rw [ParamList.perts]
    rcases List.mem_cons.1 hk with e | hk
    · injection e with e1 e2
      obtain ⟨w, hw⟩ := ownPert_mem_P p sp' sp1 e2.symm hs
      exact ⟨w, List.mem_append_left _ hw⟩
    · obtain ⟨w, hw⟩ := ownPert_mem_L rest sp' k sp1 hk hs
      exact ⟨w, List.mem_append_right _ hw⟩
theorem ownPert_mem_P : ∀ (p : Param) (sp' sp1 : Space), p = .space sp1 → SubSpace sp1 sp' →
    ∃ w, (sp'.ownPert, w) ∈ p.perts
  | .prior p, _, _, h, _ => by cases h
  | .space sp, sp', sp1, h, hs => by
    injection h with h
    subst h
    rw [Param.perts]
    exact ownPert_mem sp sp' hs
end

theorem weights_pos {p : Problem} (h : RunSafe p) : 0 < p.weights.sum := by
  rcases h.moves with ⟨sp, ⟨k, top, htop, hsub⟩, hm⟩ | ⟨tg, htg, hh⟩
  · obtain ⟨w, hw⟩ := ownPert_mem top sp hsub
    have hsum := perts_sum _ _ hw
    simp only at hsum
    have hne : sp.ownFuncs ≠ [] := by
      unfold Space.ownFuncs
      intro he
      rw [List.append_eq_nil_iff, List.append_eq_nil_iff] at he
      obtain ⟨⟨e1, e2⟩, e3⟩ := he
      rcases hm with hm | hm | ⟨k', q, hq⟩
      · rw [if_pos hm] at e1; simp at e1
      · rw [if_pos hm] at e3; simp at e3
      · split at e2
        · rename_i hp
          have hmem : q ∈ sp.params.priors := mem_priors.2 ⟨k', hq⟩
          rw [hp] at hmem; simp at hmem
        · simp at e2
    have hpos : 0 < w := by
      rw [hsum]
      unfold Space.ownPert
      simp only
      obtain ⟨fw, hfw⟩ := List.exists_mem_of_ne_nil _ hne
      refine sum_pos_of_mem ?_ (List.mem_map_of_mem (f := (·.2)) hfw) (ownFuncs_pos fw hfw)
      intro x hx
      obtain ⟨fw', h1, rfl⟩ := List.mem_map.1 hx
      exact (ownFuncs_pos fw' h1).le
    refine sum_pos_of_mem weights_nonneg ?_ hpos
    unfold Problem.weights
    refine List.mem_append_left _ ?_
    have : (sp.ownPert, w) ∈ p.spaces.perts := by
      unfold Spaces.perts
      exact List.mem_flatMap.2 ⟨_, htop, hw⟩
    exact List.mem_map_of_mem (f := (·.2)) this
  · refine sum_pos_of_mem weights_nonneg (x := 1) ?_ one_pos
    unfold Problem.weights
    refine List.mem_append_right _ ?_
    have : tg ∈ p.hier := List.mem_filter.2 ⟨htg, hh⟩
    rw [if_neg]
    · simp
    · intro he
      have he' : p.hier = [] := by simpa using he
      rw [he'] at this; simp at this

theorem perturbs_length (p : Problem) : p.perturbs.length = p.weights.length := by
  unfold Problem.perturbs Problem.weights Problem.noisePerturbs
  split <;> simp

/-! ### the statistics -/

/-- The entries for perturbations of parameter spaces are kept by sub-type. -/
def SubOnly (d : List (String × Stat)) : Prop :=
  ∀ name n, name.startsWith "ParamSpacePerturbation" = true → dget d name ≠ some (.count n)

theorem SubOnly.dset {d : List (String × Stat)} (h : SubOnly d) (name : String) (m : List (String × ℝ)) :
    SubOnly (dset d name (.sub m)) := by
  intro k n hk e
  by_cases hkn : k = name
  · subst hkn; rw [dget_dset_same] at e; cases e
  · rw [dget_dset_ne _ _ _ _ hkn] at e; exact h k n hk e

theorem bumpSub_runs {d : List (String × Stat)} (h : SubOnly d) {name : String}
    (hn : name.startsWith "ParamSpacePerturbation" = true) (k : String) (v : ℝ) :
    ∃ d', bumpSub d name k v = .ok d' ∧ SubOnly d' := by
  unfold bumpSub
  split
  · rename_i n e; exact absurd e (h _ _ hn)
  · exact ⟨_, rfl, h.dset _ _⟩
  · exact ⟨_, rfl, h.dset _ _⟩

theorem bumpSubs_runs {name : String} (hn : name.startsWith "ParamSpacePerturbation" = true) (acc : Bool) :
    ∀ (st : List (String × ℝ)) (p a : List (String × Stat)), SubOnly p → SubOnly a →
    ∃ p' a', bumpSubs name acc st p a = .ok (p', a') ∧ SubOnly p' ∧ SubOnly a'
  | [], p, a, hp, ha => ⟨p, a, rfl, hp, ha⟩
  | (k, v) :: rest, p, a, hp, ha => by
    obtain ⟨p1, e1, h1⟩ := bumpSub_runs hp hn k v
    obtain ⟨a1, e2, h2⟩ := bumpSub_runs ha hn k (if acc then v else 0)
    obtain ⟨p2, a2, e3, h3⟩ := bumpSubs_runs hn acc rest p1 a1 h1 h2
    refine ⟨p2, a2, ?_, h3⟩
    rw [bumpSubs, e1, Utils1d.ok_bind, e2, Utils1d.ok_bind, e3]

theorem bumpCount_sub {name : String} (hn : name.startsWith "ParamSpacePerturbation" = false) (acc : Bool)
    {p a : List (String × Stat)} (hp : SubOnly p) (ha : SubOnly a) :
    SubOnly (bumpCount name acc p a).1 ∧ SubOnly (bumpCount name acc p a).2 := by
  have key : ∀ {d : List (String × Stat)} (n : ℕ), SubOnly d → SubOnly (dset d name (.count n)) := by
    intro d n hd k m hk e
    by_cases hkn : k = name
    · subst hkn; rw [hn] at hk; cases hk
    · rw [dget_dset_ne _ _ _ _ hkn] at e; exact hd k m hk e
  unfold bumpCount
  split
  · exact ⟨key _ hp, key _ ha⟩
  · exact ⟨key _ hp, key _ ha⟩

theorem newStats_runs {p : Problem} {name : String} {new : State} (acc : Bool)
    (hs : name.startsWith "ParamSpacePerturbation" = true → ∃ st, loadStats new = .ok st)
    {pr ac : List (String × Stat)} (hp : SubOnly pr) (ha : SubOnly ac) :
    ∃ p' a', newStats p.cfg name acc new pr ac = .ok (p', a') ∧ SubOnly p' ∧ SubOnly a' := by
  unfold newStats
  by_cases hn : name.startsWith "ParamSpacePerturbation" = true
  · rw [if_pos hn]
    obtain ⟨st, e⟩ := hs hn
    obtain ⟨p', a', h1, h2⟩ := bumpSubs_runs hn acc st pr ac hp ha
    refine ⟨p', a', ?_, h2⟩
    change (loadStats new >>= fun st => bumpSubs name acc st pr ac) = _
    rw [e, Utils1d.ok_bind, h1]
  · rw [if_neg hn]
    have := bumpCount_sub (name := name) (by simpa using hn) acc hp ha
    exact ⟨_, _, rfl, this⟩

/-! ### outcomes -/

/-- A set of states that chains do not leave, and in which they do not fail. -/
structure Kept (p : Problem) (P : State → Prop) : Prop where
  closed : Closed p.cfg P
  inv : ∀ s, P s → PInv vecVal p s.params
  noise : ∀ s, P s → ∀ tg ∈ p.targets, tg.hierarchical = true → NoiseWithin tg s.params
  coherent : ∀ s, P s → Coherent p.tf s
  extra : ∀ s, P s → s.extra = []
  keys : ∀ s, P s → NoiseKeys p s.params

theorem kept_visits {p : Problem} (h : ProblemSafe p) : Kept p (Visits p) where
  closed := closed_visited _ _
  inv := fun _ hs => visits_inv h.ok h.good hs
  noise := fun s hs => C16_visited p h.targets h.checked s hs
  coherent := fun _ hs => (visits_cache h.targets hs).1
  extra := fun _ hs => (visits_cache h.targets hs).2
  keys := fun _ hs => visits_keys hs

/-- If the method returns, the chain is as considered, draws have been used in turn, and the result is as claimed;
if it raises, then one of the given exceptions. -/
def Goes {α : Type} (P : State → Prop) (m : Act (Chain State Store E) α) (c : Chain State Store E) (t : List Draw)
    (Q : α → Prop) (X : List Draw → PyErr → Prop) : Prop :=
  match m c t with
  | (.ok a, c', t') => RunInvOf P c' ∧ t' <:+ t ∧ Q a
  | (.error e, _, _) => X t e

theorem _root_.BB.Spec.RunInvOf.of_cur {c : Chain State Store E} (h : RunInvOf P c) {s : State} (hs : P s) :
    RunInvOf P { c with cur := s } := ⟨hs, h.temp, h.proposed, h.accepted⟩

theorem _root_.BB.Spec.RunInvOf.count {c : Chain State Store E} (h : RunInvOf P c) (name : String) :
    RunInvOf P (Chain.countException name c) := ⟨h.cur, h.temp, h.proposed, h.accepted⟩

/-- The exceptions of a single attempt. -/
def Exp1 (t : List Draw) (e : PyErr) : Prop := e = .tapeExhausted ∨ (e = .valueError ∧ ∃ d ∈ t, d.u = 0)

theorem Exp1.mono {t t' : List Draw} {e : PyErr} (h : Exp1 t' e) (hs : t' <:+ t) : Exp1 t e := by
  rcases h with h | ⟨h, d, hd, hu⟩
  · exact Or.inl h
  · exact Or.inr ⟨h, d, hs.subset hd, hu⟩

theorem saveIfDue_runs {p : Problem} (h : RunSafe p) (hP : Kept p P) {c : Chain State Store E} (hc : RunInvOf P c) (t : List Draw) :
    ∃ c', Chain.saveIfDue p.cfg c t = (.ok (), c', t) ∧ RunInvOf P c' := by
  classical
  unfold Chain.saveIfDue
  split
  · obtain ⟨d, hd⟩ := save_runs h (hP.inv _ hc.cur) (hP.keys _ hc.cur) (hP.extra _ hc.cur) c.saved
    rw [hd]
    exact ⟨_, rfl, hc.cur, hc.temp, hc.proposed, hc.accepted⟩
  · exact ⟨c, rfl, hc⟩

theorem finish_goes {p : Problem} (h : RunSafe p) (hP : Kept p P) {name : String} {new : State} {lp : PyF}
    (hs : name.startsWith "ParamSpacePerturbation" = true → ∃ st, loadStats new = .ok st)
    (hv : ∀ z, lp.gtFin z → P new)
    {c : Chain State Store E} (hc : RunInvOf P c) (t : List Draw) :
    Goes P (Chain.finish p.cfg name new lp) c t (fun _ => True) Exp1 := by
  classical
  unfold Goes
  cases t with
  | nil => rw [finish_nil]; exact Or.inl rfl
  | cons d t =>
    rw [finish_run]
    by_cases hu : d.u ≤ 0
    · rw [if_pos hu]
      exact Or.inr ⟨rfl, d, List.mem_cons_self .., le_antisymm hu d.hu.1⟩
    · rw [if_neg hu]
      obtain ⟨p', a', e, h1, h2⟩ := newStats_runs (p := p) (decide (lp.gtFin (Real.log d.u))) hs hc.proposed hc.accepted
      rw [e]
      have hc' : RunInvOf P (afterStats c new (decide (lp.gtFin (Real.log d.u))) p' a') := by
        refine ⟨?_, hc.temp, h1, h2⟩
        unfold afterStats
        simp only
        split
        · rename_i hacc; exact hv _ (of_decide_eq_true hacc)
        · exact hc.cur
      obtain ⟨c', e', hc''⟩ := saveIfDue_runs h hP hc' t
      simp only [e']
      exact ⟨hc'', List.suffix_cons _ _, trivial⟩

/-- One attempt. -/
theorem attempt_goes {p : Problem} (h : RunSafe p) (hP : Kept p P) {c : Chain State Store E} (hc : RunInvOf P c) (t : List Draw) :
    Goes P (Chain.attempt p.cfg) c t (fun o => o = none → ¬ NeverFails p) Exp1 := by
  unfold Goes
  rw [attempt_run]
  have hlen : p.cfg.perturbs.length = p.cfg.weights.length := perturbs_length p
  rw [hlen]
  rcases choices_runs weights_nonneg (weights_pos h) t with ⟨i, t1, e, w, hw, hpos⟩ | ⟨t1, e⟩
  · have e' : choices p.cfg.weights.length p.cfg.weights t = (.ok i, t1) := e
    have ht1 : t1 <:+ t := by
      have := Consumes.choices' p.weights.length p.weights t
      rw [e] at this; exact this
    rw [e']
    have hi : i < p.perturbs.length := by
      rw [perturbs_length]; exact (List.getElem?_eq_some_iff.1 hw).1
    have hf : p.cfg.perturbs[i]? = some (p.perturbs[i]) := List.getElem?_eq_getElem hi
    generalize p.perturbs[i] = nf at hf
    obtain ⟨name, f⟩ := nf
    simp only [hf]
    obtain ⟨hr, hcons⟩ := prop_runs h.base (hP.inv _ hc.cur) (hP.noise _ hc.cur) hf hw hpos
    have ht2 := hcons t1
    rcases hr t1 with ⟨⟨new, lpr⟩, t2, e2, hprop⟩ | ⟨t2, e2⟩
    · rw [e2] at ht2 ⊢
      simp only at ht2 hprop ⊢
      have ht2' := ht2.trans ht1
      have hmem : (name, f) ∈ p.cfg.perturbs := List.mem_of_getElem? hf
      have hadopt : ∀ y z, (lpr.add y).gtFin z → P new := fun y z hz =>
        hP.closed.adopt _ _ hmem _ _ _ _ _ hc.cur e2 (gtFin_add hz).1 (gtFin_add hz).2
      by_cases hinf : lpr.isInf = true
      · rw [if_pos hinf]
        have := finish_goes h hP (E := E) hprop.stats (hadopt (.fin 0)) hc t2
        unfold Goes at this
        match hfin : Chain.finish p.cfg name new (lpr.add (.fin 0)) c t2 with
        | (.ok ev, c', t3) => rw [hfin] at this; exact ⟨this.1, this.2.1.trans ht2', by simp⟩
        | (.error e, c', t3) => rw [hfin] at this; exact this.mono ht2'
      · rw [if_neg hinf]
        have hl := llr_runs h hc.temp (hP.coherent _ hc.cur) hprop.coherent (hP.noise _ hc.cur)
          hprop.noise
        have hleft : P (p.cfg.llr c.cur new c.temp).2.1 := hP.closed.left _ _ _ hc.cur
        have hright : ∀ y z, (lpr.add y).gtFin z → P (p.cfg.llr c.cur new c.temp).2.2 := fun y z hz =>
          hP.closed.right _ _ _ (hadopt y z hz)
        have hst : name.startsWith "ParamSpacePerturbation" = true →
            ∃ st, loadStats (p.cfg.llr c.cur new c.temp).2.2 = .ok st := by
          intro hn
          obtain ⟨st, hst⟩ := hprop.stats hn
          exact ⟨st, llr_stats _ _ _ hst⟩
        match hll : p.cfg.llr c.cur new c.temp with
        | (.ok r, cur, new1) =>
          rw [hll] at hleft hright hst
          have := finish_goes h hP (E := E) hst (hright r) (hc.of_cur hleft) t2
          unfold Goes at this
          simp only at this ⊢
          match hfin : Chain.finish p.cfg name new1 (lpr.add r) { c with cur := cur } t2 with
          | (.ok ev, c', t3) => rw [hfin] at this; exact ⟨this.1, this.2.1.trans ht2', by simp⟩
          | (.error e, c', t3) => rw [hfin] at this; exact this.mono ht2'
        | (.error e, cur, new1) =>
          rw [hll] at hl hleft
          rcases hl with ⟨r, hr⟩ | ⟨e', h1, h2, h3⟩
          · cases hr
          · injection h1 with h1
            subst h1
            rcases h2 with rfl | rfl
            · exact ⟨(hc.of_cur hleft).count _, ht2', fun _ => h3⟩
            · exact ⟨(hc.of_cur hleft).count _, ht2', fun _ => h3⟩
    · rw [e2]
      exact Or.inl rfl
  · have e' : choices p.cfg.weights.length p.cfg.weights t = (.error .tapeExhausted, t1) := e
    rw [e']
    exact Or.inl rfl

theorem _root_.BB.Spec.Expected.mono {p : Problem} {t t' : List Draw} {e : PyErr} (h : Expected p t' e) (hs : t' <:+ t) : Expected p t e := by
  rcases h with h | ⟨h, d, hd, hu⟩ | h
  · exact Or.inl h
  · exact Or.inr (Or.inl ⟨h, d, hs.subset hd, hu⟩)
  · exact Or.inr (Or.inr h)

theorem attempts_goes {p : Problem} (h : RunSafe p) (hP : Kept p P) : ∀ (k : ℕ), (k = 0 → ¬ NeverFails p) →
    ∀ (c : Chain State Store E), RunInvOf P c → ∀ t : List Draw,
    Goes P (Chain.attempts p.cfg k) c t (fun _ => True) (Expected p)
  | 0, h0, c, _, t => Or.inr (Or.inr ⟨rfl, h0 rfl⟩)
  | k + 1, _, c, hc, t => by
    have := attempt_goes h hP hc t
    unfold Goes at this ⊢
    rw [attempts_succ]
    match ha : Chain.attempt p.cfg c t with
    | (.ok (some ev), c', t') => rw [ha] at this; exact ⟨this.1, this.2.1, trivial⟩
    | (.ok none, c', t') =>
      rw [ha] at this
      have ih := attempts_goes h hP k (fun _ => this.2.2 rfl) c' this.1 t'
      unfold Goes at ih
      simp only
      match hb : Chain.attempts p.cfg k c' t' with
      | (.ok ev, c2, t2) => rw [hb] at ih; exact ⟨ih.1, ih.2.1.trans this.2.1, trivial⟩
      | (.error e, c2, t2) => rw [hb] at ih; exact Expected.mono ih this.2.1
    | (.error e, c', t') =>
      rw [ha] at this
      rcases this with h | h
      · exact Or.inl h
      · exact Or.inr (Or.inl h)

theorem next_goes {p : Problem} (h : RunSafe p) (hP : Kept p P) {c : Chain State Store E} (hc : RunInvOf P c) (t : List Draw) :
    Goes P (Chain.next p.cfg) c t (fun _ => True) (Expected p) :=
  attempts_goes h hP 500 (by simp) c hc t

theorem Goes.bind {α β : Type} {p : Problem} {m : Act (Chain State Store E) α} {f : α → Act (Chain State Store E) β}
    {c : Chain State Store E} {t : List Draw} {Q : α → Prop} {R : β → Prop}
    (h : Goes P m c t Q (Expected p)) (hf : ∀ a c' t', Q a → RunInvOf P c' → Goes P (f a) c' t' R (Expected p)) :
    Goes P (m >>= f) c t R (Expected p) := by
  unfold Goes at h ⊢
  rw [Act.bind_run]
  match hm : m c t with
  | (.ok a, c', t') =>
    rw [hm] at h
    have := hf a c' t' h.2.2 h.1
    unfold Goes at this
    simp only
    match hb : f a c' t' with
    | (.ok b, c2, t2) => rw [hb] at this; exact ⟨this.1, this.2.1.trans h.2.1, this.2.2⟩
    | (.error e, c2, t2) => rw [hb] at this; exact Expected.mono this h.2.1
  | (.error e, c', t') => rw [hm] at h; exact h

theorem Goes.pure' {α : Type} {p : Problem} {a : α} {c : Chain State Store E} {t : List Draw} {Q : α → Prop}
    (hc : RunInvOf P c) (h : Q a) : Goes P (pure a) c t Q (Expected p) := ⟨hc, List.suffix_refl _, h⟩

theorem _root_.BB.Spec.HookSafeOf.goes {p : Problem} {m : Act (Chain State Store E) Unit} (h : HookSafeOf P m) {c : Chain State Store E}
    (hc : RunInvOf P c) (t : List Draw) : Goes P m c t (fun _ => True) (Expected p) := by
  obtain ⟨c', t', e, h1, h2⟩ := h c t hc
  unfold Goes
  rw [e]
  exact ⟨h1, h2, trivial⟩

theorem iteration_goes {p : Problem} (h : RunSafe p) (hP : Kept p P) {b s : ℤ} (hs : s ≠ 0) {bi ei : Act (Chain State Store E) Unit}
    (hb : HookSafeOf P bi) (he : HookSafeOf P ei) {c : Chain State Store E} (hc : RunInvOf P c) (t : List Draw) :
    Goes P (Chain.iteration p.cfg b s bi ei) c t (fun _ => True) (Expected p) := by
  unfold Chain.iteration
  refine Goes.bind (Q := fun _ => True) ?_ fun _ c1 t1 _ h1 => ?_
  · unfold Goes
    have hflag : ∃ f, Chain.setFlag b s c t = (.ok (), { c with saveNow := f }, t) := by
      unfold Chain.setFlag
      simp only
      split
      · exact ⟨_, rfl⟩
      · exact ⟨_, rfl⟩
    obtain ⟨f, hf⟩ := hflag
    rw [hf]
    exact ⟨⟨hc.cur, hc.temp, hc.proposed, hc.accepted⟩, List.suffix_refl _, trivial⟩
  · exact Goes.bind (HookSafeOf.goes hb h1 t1) fun _ c2 t2 _ h2 => Goes.bind (next_goes h hP h2 t2) fun ev c3 t3 _ h3 =>
      Goes.bind (HookSafeOf.goes he h3 t3) fun _ c4 t4 _ h4 => Goes.pure' h4 trivial

theorem advance_goes {p : Problem} (h : RunSafe p) (hP : Kept p P) {b s : ℤ} (hs : s ≠ 0) {bi ei : Act (Chain State Store E) Unit}
    (hb : HookSafeOf P bi) (he : HookSafeOf P ei) : ∀ (n : ℕ) (c : Chain State Store E), RunInvOf P c → ∀ t : List Draw,
    Goes P (Chain.advance p.cfg b s bi ei n) c t (fun evs => evs.length = n) (Expected p)
  | 0, c, hc, t => Goes.pure' hc rfl
  | n + 1, c, hc, t => by
    rw [Chain.advance]
    exact Goes.bind (iteration_goes h hP hs hb he hc t) fun ev c1 t1 _ h1 =>
      Goes.bind (advance_goes h hP hs hb he n c1 h1 t1) fun evs c2 t2 hl h2 => Goes.pure' h2 (by simp [hl])

end BB.Lemmas

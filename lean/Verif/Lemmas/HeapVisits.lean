import Verif.Lemmas.HeapPerturb
import Verif.Lemmas.HeapHistory
import Verif.Lemmas.ConformProps
import Verif.Spec.HeapChain

/-!
Chains on the heap visit what chains on values visit.
-/

namespace BB.Lemmas
open BB BB.Spec BB.HM

/-! ### valid values -/

theorem validVals_of {n : ℕ} : ∀ {vals : List (String × PVal)}, (∀ kv ∈ vals, kv.2.len = n ∧ ValidVal kv.2) →
    ValidVals n vals
  | [], _ => by rw [ValidVals]; trivial
  | (k, v) :: rest, h => by
    rw [ValidVals]
    exact ⟨h (k, v) (List.mem_cons_self ..), validVals_of fun kv hm => h kv (List.mem_cons_of_mem _ hm)⟩

theorem validList_of : ∀ {l : List PSState}, (∀ x ∈ l, ValidPS x) → ValidList l
  | [], _ => by rw [ValidList]; trivial
  | s :: l, h => by
    rw [ValidList]
    exact ⟨h s (List.mem_cons_self ..), validList_of fun x hm => h x (List.mem_cons_of_mem _ hm)⟩

mutual
theorem valid_S {vs : ValSpec} : ∀ (sp : Space) (s : PSState), SConf vs sp s → ValidPS s
  | .mk info ps, s, hs => by
    rw [SConf] at hs
    obtain ⟨h1, hsh, hdr, rest, poss, hv, hh, hr⟩ := hs
    cases s with
    | mk n vals kd =>
      rw [ValidPS]
      refine validVals_of fun kv hm => ⟨(hsh kv hm).1, ?_⟩
      have hne := (hsh kv hm).2
      obtain ⟨k, v⟩ := kv
      change vals = _ at hv
      rw [hv] at hm
      rcases List.mem_append.1 hm with hm | hm
      · cases hk : info.kind with
        | plain => rw [hk] at hh; obtain ⟨rfl, _⟩ := hh; simp at hm
        | vor1 v' => rw [hk] at hh; obtain ⟨xs, rfl, _⟩ := hh; simp at hm; rw [hm.2, ValidVal]; trivial
        | vor2 v' => rw [hk] at hh; obtain ⟨xs, rfl, _⟩ := hh; simp at hm; rw [hm.2, ValidVal]; trivial
      · exact valid_L ps poss rest hr k v hm hne
theorem valid_L {vs : ValSpec} : ∀ (ps : ParamList) (poss : List Pos) (vals : List (String × PVal)),
    LConf vs ps poss vals → ∀ k v, (k, v) ∈ vals → v ≠ .states [] → ValidVal v
  | .nil, poss, vals, h => by
    rw [LConf] at h
    subst h
    simp
  | .cons name p rest, poss, vals, h => by
    rw [LConf] at h
    obtain ⟨v, vals', rfl, h1, h2⟩ := h
    intro k v' hm hne
    rcases List.mem_cons.1 hm with hm | hm
    · injection hm with _ hm
      subst hm
      exact valid_P p poss v' h1 hne
    · exact valid_L rest poss vals' h2 k v' hm hne
theorem valid_P {vs : ValSpec} : ∀ (p : Param) (poss : List Pos) (v : PVal),
    PConf vs p poss v → v ≠ .states [] → ValidVal v
  | .prior p, poss, v, h, _ => by
    rw [PConf] at h
    obtain ⟨a, rfl, _⟩ := h
    rw [ValidVal]; trivial
  | .space sp, poss, v, h, hne => by
    rw [PConf] at h
    obtain ⟨l, hl, h⟩ := h
    rcases hl with rfl | ⟨_, rfl⟩
    · rw [ValidVal]
      exact ⟨fun he => hne (by rw [he]), validList_of fun x hx => valid_S sp x (h x hx)⟩
    · rw [ValidVal]; trivial
end

theorem validTop_of : ∀ {p : Params}, (∀ k s, (k, TopVal.ps s) ∈ p → ValidPS s) → ValidTop p
  | [], _ => trivial
  | (k, .noise d) :: rest, h => validTop_of (p := rest) fun k s hm => h k s (List.mem_cons_of_mem _ hm)
  | (k, .ps s) :: rest, h =>
    ⟨h k s (List.mem_cons_self ..), validTop_of fun k s hm => h k s (List.mem_cons_of_mem _ hm)⟩

theorem PInv.valid {vs : ValSpec} {p : Problem} {params : Params} (h : PInv vs p params) : ValidTop params := by
  refine validTop_of fun k s hm => ?_
  have hd := dget_of_mem h.1 hm
  obtain ⟨⟨k', sp⟩, hsp, hk⟩ := List.mem_map.1 (h.2.2 k s hd)
  simp only at hk
  subst hk
  obtain ⟨s', e, hc, _⟩ := h.2.1 _ _ hsp
  rw [hd] at e
  injection e with e
  injection e with e
  subst e
  exact valid_S sp s hc

/-! ### the number of nodes -/

mutual
theorem nodes_unique {h : Heap} : ∀ {s s' : PSState} {a : Addr}, RepPS h s a → RepPS h s' a → s.nodes = s'.nodes
  | .mk n vals kd, .mk n' vals' kd', a, hr, hr' => by
    rw [RepPS] at hr hr'
    obtain ⟨vs, attrs, kd₁, ho, hv⟩ := hr
    obtain ⟨vs', attrs', kd₁', ho', hv'⟩ := hr'
    rw [ho] at ho'; cases ho'
    rw [PSState.nodes, PSState.nodes, nodesVals_unique hv hv']
theorem nodesVals_unique {h : Heap} : ∀ {vals vals' : List (String × PVal)} {vs : List (String × Addr)},
    RepVals h vals vs → RepVals h vals' vs → nodesVals vals = nodesVals vals'
  | [], vals', vs, hr, hr' => by
    rw [RepVals] at hr; subst hr
    cases vals' with
    | nil => rfl
    | cons kv rest => rw [RepVals] at hr'; obtain ⟨_, _, h, _⟩ := hr'; cases h
  | (k, v) :: rest, vals', vs, hr, hr' => by
    rw [RepVals] at hr
    obtain ⟨b, vs', rfl, hv, hr⟩ := hr
    cases vals' with
    | nil => rw [RepVals] at hr'; cases hr'
    | cons kv rest' =>
      obtain ⟨k', v'⟩ := kv
      rw [RepVals] at hr'
      obtain ⟨b', vs'', e, hv', hr'⟩ := hr'
      cases e
      have ih := nodesVals_unique hr hr'
      cases v <;> cases v' <;> simp only [RepVal] at hv hv'
      · rw [nodesVals, nodesVals, ih]
      · obtain ⟨as, hv', _⟩ := hv'; rw [hv] at hv'; cases hv'
      · obtain ⟨as, hv', _⟩ := hv'; rw [hv] at hv'; cases hv'
      · obtain ⟨as, hv, _⟩ := hv; rw [hv] at hv'; cases hv'
      · obtain ⟨as, hv, hl⟩ := hv; obtain ⟨as', hv', hl'⟩ := hv'
        rw [hv] at hv'; cases hv'
        rw [nodesVals, nodesVals, ih, nodesList_unique hl hl']
      · obtain ⟨as, hv, _⟩ := hv; obtain ⟨as', hv', _⟩ := hv'; rw [hv] at hv'; cases hv'
      · obtain ⟨as, hv, _⟩ := hv; rw [hv] at hv'; cases hv'
      · obtain ⟨as, hv, _⟩ := hv; obtain ⟨as', hv', _⟩ := hv'; rw [hv] at hv'; cases hv'
      · rw [nodesVals, nodesVals, ih]
theorem nodesList_unique {h : Heap} : ∀ {l l' : List PSState} {as : List Addr},
    RepList h l as → RepList h l' as → nodesList l = nodesList l'
  | [], l', as, hr, hr' => by
    rw [RepList] at hr; subst hr
    cases l' with
    | nil => rfl
    | cons s l' => rw [RepList] at hr'; obtain ⟨_, _, h, _⟩ := hr'; cases h
  | s :: l, l', as, hr, hr' => by
    rw [RepList] at hr
    obtain ⟨a, as', rfl, hs, hr⟩ := hr
    cases l' with
    | nil => rw [RepList] at hr'; cases hr'
    | cons s' l' =>
      rw [RepList] at hr'
      obtain ⟨a', as'', e, hs', hr'⟩ := hr'
      cases e
      rw [nodesList, nodesList, nodes_unique hs hs', nodesList_unique hr hr']
end

theorem nodesParams_unique {h : Heap} : ∀ {p p' : Params} {vs : List (String × TRef)},
    RepTop h p vs → RepTop h p' vs → nodesParams p = nodesParams p'
  | [], p', vs, hr, hr' => by
    have hr : vs = [] := hr
    subst hr
    cases p' with
    | nil => rfl
    | cons kv rest => obtain ⟨_, v⟩ := kv; cases v with
      | noise d => obtain ⟨_, h, _⟩ := hr'; cases h
      | ps s => obtain ⟨_, _, h, _⟩ := hr'; cases h
  | (k, .noise d) :: rest, p', vs, hr, hr' => by
    obtain ⟨vs', rfl, hr⟩ := hr
    cases p' with
    | nil => exact absurd (show _ :: _ = [] from hr') (by simp)
    | cons kv rest' =>
      obtain ⟨k', v⟩ := kv
      cases v with
      | noise d' =>
        obtain ⟨vs'', e, hr'⟩ := hr'
        cases e
        rw [nodesParams, nodesParams, nodesParams_unique hr hr']
      | ps s' => obtain ⟨a, vs'', e, _⟩ := hr'; cases e
  | (k, .ps s) :: rest, p', vs, hr, hr' => by
    obtain ⟨a, vs', rfl, hs, hr⟩ := hr
    cases p' with
    | nil => exact absurd (show _ :: _ = [] from hr') (by simp)
    | cons kv rest' =>
      obtain ⟨k', v⟩ := kv
      cases v with
      | noise d' => obtain ⟨vs'', e, hr'⟩ := hr'; cases e
      | ps s' =>
        obtain ⟨a', vs'', e, hs', hr'⟩ := hr'
        cases e
        rw [nodesParams, nodesParams, nodes_unique hs hs', nodesParams_unique hr hr']

theorem enough_of {h : Heap} {a : Addr} {p : Params} {fuel : ℕ} (he : Enough h a fuel) (hp : Holds h a p) :
    nodesParams p ≤ fuel := by
  obtain ⟨p', ⟨vs, attrs, temp, cache, extra, ho, hr⟩, hn⟩ := he
  obtain ⟨vs', attrs', temp', cache', extra', ho', hr'⟩ := hp
  rw [ho] at ho'; cases ho'
  rw [nodesParams_unique hr' hr]; exact hn

/-! ### only the parameters matter -/

theorem perturb_params (g : PSPert) {s s₁ : State} (he : s₁.params = s.params) {t t' : List Draw} {new : State}
    {lpr : PyF} (hr : g.perturb s t = (.ok (new, lpr), t')) :
    ∃ new₁, g.perturb s₁ t = (.ok (new₁, lpr), t') ∧ new₁.params = new.params := by
  unfold PSPert.perturb at hr
  obtain ⟨n, t1, h1, hr⟩ := M.bind_ok.1 hr
  obtain ⟨i, t2, h2, hr⟩ := M.bind_ok.1 hr
  obtain ⟨⟨l, q⟩, t3, h3, hr⟩ := M.bind_ok.1 hr
  obtain ⟨l', t4, h4, hr⟩ := M.bind_ok.1 hr
  cases hr
  rw [← he] at h1 h3 h4
  exact ⟨_, M.bind_ok.2 ⟨n, t1, h1, M.bind_ok.2 ⟨i, t2, h2, M.bind_ok.2 ⟨(l, q), t3, h3,
    M.bind_ok.2 ⟨l', _, h4, rfl⟩⟩⟩⟩, rfl⟩

theorem noise_params (ts : List Target) {s s₁ : State} (he : s₁.params = s.params) {t t' : List Draw} {new : State}
    {lpr : PyF} (hr : noisePerturb ts s t = (.ok (new, lpr), t')) :
    ∃ new₁, noisePerturb ts s₁ t = (.ok (new₁, lpr), t') ∧ new₁.params = new.params := by
  unfold noisePerturb at hr
  obtain ⟨n, t1, h1, hr⟩ := M.bind_ok.1 hr
  cases hr
  rw [← he] at h1
  refine ⟨_, M.bind_ok.2 ⟨n, _, h1, rfl⟩, ?_⟩
  show dupdate s₁.params n = dupdate s.params n
  rw [he]

theorem value_params (q : Proposer) {s s₁ : State} (he : s₁.params = s.params) {t t' : List Draw} {new : State}
    {lpr : PyF} (hr : q.value s t = (.ok (new, lpr), t')) :
    ∃ new₁, q.value s₁ t = (.ok (new₁, lpr), t') ∧ new₁.params = new.params := by
  cases q with
  | space g => exact perturb_params g he hr
  | noise ts => exact noise_params ts he hr

/-! ### initial states -/

theorem storeTops_rep : ∀ (p : Params) (h : Heap) (t : List Draw),
    ∃ vs h', storeTops p h t = (.ok vs, h', t) ∧ h <+: h' ∧ RepTop h' p vs
  | [], h, t => ⟨[], h, rfl, List.prefix_rfl, rfl⟩
  | (k, .noise d) :: rest, h, t => by
    obtain ⟨vs, h', hr, hp, hv⟩ := storeTops_rep rest h t
    refine ⟨(k, .noise d) :: vs, h', ?_, hp, vs, rfl, hv⟩
    rw [storeTops, bind_of hr]; rfl
  | (k, .ps s) :: rest, h, t => by
    obtain ⟨a, h₁, hr₁, hp₁, own⟩ := storePS_run ∅ s h t
    obtain ⟨vs, h', hr, hp, hv⟩ := storeTops_rep rest h₁ t
    refine ⟨(k, .ps a) :: vs, h', ?_, hp₁.trans hp, a, vs, rfl, ?_, hv⟩
    · rw [storeTops, bind_of hr₁, bind_of hr]; rfl
    · exact repPS_keep (keep_prefix hp) (ownPS_rep own)

theorem storeState_rep (s : State) (h : Heap) (t : List Draw) :
    ∃ a h', storeState s h t = (.ok a, h', t) ∧ RepState h' s a := by
  obtain ⟨vs, h', hr, hp, hv⟩ := storeTops_rep s.params h t
  refine ⟨h'.length, h' ++ [.state vs (attrsOf vs) s.temperature s.cache s.extra], ?_, vs, attrsOf vs, get_snoc _,
    repTop_keep (keep_prefix (prefix_snoc _)) hv⟩
  rw [storeState, bind_of hr]; rfl

theorem holds_of_rep {h : Heap} {s : State} {a : Addr} (hr : RepState h s a) : Holds h a s.params := by
  obtain ⟨vs, attrs, ho, hv⟩ := hr
  exact ⟨vs, attrs, _, _, _, ho, hv⟩

theorem rep_of_holds {h : Heap} {p : Params} {a : Addr} (hh : Holds h a p) : ∃ s, s.params = p ∧ RepState h s a := by
  obtain ⟨vs, attrs, temp, cache, extra, ho, hv⟩ := hh
  exact ⟨⟨p, temp, cache, extra⟩, rfl, vs, attrs, ho, hv⟩

theorem holds_same {h h' : Heap} (hs : AllSame h h') {p : Params} {a : Addr} (hh : Holds h a p) : Holds h' a p := by
  obtain ⟨vs, attrs, temp, cache, extra, ho, hv⟩ := hh
  obtain ⟨o', h1, h2⟩ := hs a _ ho
  cases o' <;> simp only [SameData] at h2 <;>
    first | cases (h2 : (_ : Obj) = _) | (obtain ⟨rfl, rfl⟩ := h2; exact ⟨_, _, _, _, _, h1, repTop_same hs hv⟩)

/-! ### proposals -/

theorem proposer_sim (q : Proposer) {h : Heap} {s : State} {a : Addr} {fuel : ℕ} (hr : RepState h s a)
    (hv : ValidTop s.params) (hw : ParamsWf s.params) (hf : nodesParams s.params ≤ fuel) :
    Sim AnyHeap (fun h' r r' => RepState h' r'.1 r.1 ∧ r.2 = r'.2) h (q.run fuel a) (q.value s) := by
  cases q with
  | space g => exact Sim.mono (perturbH_sim g hr hv hw hf) (fun _ h => h) fun _ _ _ h => h.2
  | noise ts =>
    exact Sim.mono (noisePerturbH_sim ts hr hv (le_trans (depthTop_le_nodes _) hf)) (fun _ h => h)
      fun _ _ _ h => ⟨h.2.2.1, h.2.1⟩

theorem proposer_perturbs {p : Problem} {q : Proposer} (hq : q ∈ proposers p) :
    ∃ name, (name, q.value) ∈ p.cfg.perturbs := by
  rcases List.mem_append.1 hq with hq | hq
  · obtain ⟨g, hg, rfl⟩ := List.mem_map.1 hq
    exact ⟨_, List.mem_append_left _ (List.mem_map.2 ⟨g, hg, rfl⟩)⟩
  · split at hq
    · cases hq
    · rename_i he
      rw [List.mem_singleton] at hq
      subst hq
      have hm : ∃ name, (name, (Proposer.noise p.hier).value) ∈ p.noisePerturbs := by
        unfold Problem.noisePerturbs
        rw [if_neg he]
        exact ⟨_, List.mem_singleton.2 rfl⟩
      obtain ⟨name, hm⟩ := hm
      exact ⟨name, List.mem_append_right _ hm⟩

theorem perturbs_proposer {p : Problem} {name : String} {f : State → M (State × PyF)}
    (hf : (name, f) ∈ p.cfg.perturbs) : ∃ q ∈ proposers p, f = q.value := by
  rcases List.mem_append.1 (show (name, f) ∈ p.perturbs from hf) with hf | hf
  · obtain ⟨g, hg1, hg2⟩ := List.mem_map.1 hf
    injection hg2 with e1 e2
    subst e2
    exact ⟨.space g.1, List.mem_append_left _ (List.mem_map.2 ⟨g, hg1, rfl⟩), rfl⟩
  · unfold Problem.noisePerturbs at hf
    split at hf
    · simp at hf
    · rename_i he
      rw [List.mem_singleton] at hf
      injection hf with e1 e2
      subst e2
      refine ⟨.noise p.hier, List.mem_append_right _ ?_, rfl⟩
      rw [if_neg he]
      exact List.mem_singleton.2 rfl

theorem problem_inv {p : Problem} (hp : ProblemOk p) {s : State} (hs : Visits p s) :
    ValidTop s.params ∧ ParamsWf s.params :=
  have hg := good_problem hp (fun _ _ q _ _ => anyVal_ok q) (fun _ _ _ _ _ => Or.inl trivial)
  have hi := visits_inv hp hg hs
  ⟨hi.valid, hi.wf hg⟩

/-- What a chain on the heap visits has the value of a state that a chain on values visits. -/
theorem heapVisits_value {p : Problem} (hp : ProblemOk p) {h : Heap} {a : Addr} (hv : HeapVisits p h a) :
    ∃ s, Visits p s ∧ Holds h a s.params := by
  induction hv with
  | @start h h' a s t hs hr =>
    obtain ⟨a', h'', hr', hrep⟩ := storeState_rep s h t
    rw [hr] at hr'; cases hr'
    exact ⟨s, .start hs, holds_of_rep hrep⟩
  | meanwhile _ hh ih =>
    obtain ⟨s, hs, hr⟩ := ih
    exact ⟨s, hs, holds_same (history_allSame hh) hr⟩
  | @adopt h h' a b q fuel t t' lpr _ hq he hr h1 h2 ih =>
    obtain ⟨s, hs, hh⟩ := ih
    have hf := enough_of he hh
    obtain ⟨s₁, he₁, hrep⟩ := rep_of_holds hh
    obtain ⟨hval, hwf⟩ := problem_inv hp hs
    rw [← he₁] at hval hwf hf
    obtain ⟨⟨new, l⟩, hp', hnew, hl⟩ := (proposer_sim q hrep hval hwf hf).ok' hr
    simp only at hl hnew
    subst hl
    obtain ⟨new₁, hp₁, hn₁⟩ := value_params q he₁.symm hp'
    obtain ⟨name, hm⟩ := proposer_perturbs hq
    refine ⟨new₁, .adopt hm hs hp₁ h1 h2, ?_⟩
    rw [hn₁]
    exact holds_of_rep hnew

theorem visits_heap {p : Problem} (hp : ProblemOk p) {s : State} (hv : Visits p s) :
    ∃ h a, HeapVisits p h a ∧ Holds h a s.params := by
  unfold Visits at hv
  induction hv with
  | @start s hs =>
    obtain ⟨a, h, hr, hrep⟩ := storeState_rep s [] []
    exact ⟨h, a, .start hs hr, holds_of_rep hrep⟩
  | temp x _ ih => exact ih
  | @left a b T _ ih =>
    rw [show (p.cfg.llr a b T).2.1.params = a.params from (llr_step _ _ _ _ _ _ a b T).1.params]
    exact ih
  | @right b a T _ ih =>
    rw [show (p.cfg.llr a b T).2.2.params = b.params from (llr_step _ _ _ _ _ _ a b T).2.params]
    exact ih
  | @adopt s new name f t t' lpr hf hs hr h1 h2 ih =>
    obtain ⟨h, a, hh, hold⟩ := ih
    obtain ⟨q, hq, rfl⟩ := perturbs_proposer hf
    obtain ⟨s₁, he₁, hrep⟩ := rep_of_holds hold
    obtain ⟨new₁, hr₁, hn₁⟩ := value_params q he₁ hr
    obtain ⟨hval, hwf⟩ := problem_inv hp hs
    rw [← he₁] at hval hwf
    obtain ⟨⟨b, l⟩, h', hrun, hnew, hl⟩ := (proposer_sim q hrep hval hwf (le_refl _)).ok hr₁
    simp only at hl hnew
    subst hl
    refine ⟨h', b, .adopt hh hq ⟨_, holds_of_rep hrep, le_refl _⟩ hrun h1 h2, ?_⟩
    rw [← hn₁]
    exact holds_of_rep hnew

end BB.Lemmas

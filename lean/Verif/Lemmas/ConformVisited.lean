import Verif.Lemmas.ConformSites
import Verif.Lemmas.Instances

/-!
# The invariant of parameter-space states: nested states and the states that are visited
-/

namespace BB.Lemmas

open BB BB.Spec

mutual
theorem wf_S {vs : ValSpec} : ∀ (sp : Space) (s : PSState), SGood vs sp → SConf vs sp s → PSWf s
  | .mk info ps, s, hg, hs => by
    obtain ⟨h1, hsh, hdr, rest, poss, hv, hh, hr⟩ := SConf_iff.1 hs
    have hg' := SGood_iff.1 hg
    have hnd := keys_nodup hg'.1 hv hh hr
    rw [SGood] at hg
    cases s with
    | mk n vals kd =>
      refine .mk hnd (fun k l hm he => ?_) fun k l hm x hx => ?_
      · subst he
        exact (hsh _ hm).2 rfl
      · change vals = _ at hv
        rw [hv] at hm
        rcases List.mem_append.1 hm with hm | hm
        · exfalso
          cases hk : info.kind with
          | plain => rw [show (Space.mk info ps).info.kind = _ from hk] at hh; obtain ⟨rfl, _⟩ := hh; simp at hm
          | vor1 v => rw [show (Space.mk info ps).info.kind = _ from hk] at hh; obtain ⟨xs, rfl, _⟩ := hh; simp at hm
          | vor2 v => rw [show (Space.mk info ps).info.kind = _ from hk] at hh; obtain ⟨xs, rfl, _⟩ := hh; simp at hm
        · exact wf_L ps poss rest hg.2 (LConf_iff.2 hr) k l hm x hx
theorem wf_L {vs : ValSpec} : ∀ (ps : ParamList) (poss : List Pos) (vals : List (String × PVal)),
    LGood vs ps → LConf vs ps poss vals → ∀ k l, (k, PVal.states l) ∈ vals → ∀ x ∈ l, PSWf x
  | .nil, poss, vals, _, h => by
    rw [LConf] at h
    subst h
    simp
  | .cons name p rest, poss, vals, hg, h => by
    rw [LGood] at hg
    rw [LConf] at h
    obtain ⟨v, vals', rfl, h1, h2⟩ := h
    intro k l hm
    rcases List.mem_cons.1 hm with hm | hm
    · injection hm with _ hm
      subst hm
      exact wf_P p poss l hg.1 h1
    · exact wf_L rest poss vals' hg.2 h2 k l hm
theorem wf_P {vs : ValSpec} : ∀ (p : Param) (poss : List Pos) (l : List PSState),
    PGood vs p → PConf vs p poss (.states l) → ∀ x ∈ l, PSWf x
  | .prior p, poss, l, _, h => by
    rw [PConf] at h
    obtain ⟨a, h, _⟩ := h
    cases h
  | .space sp, poss, l, hg, h => by
    rw [PGood] at hg
    rw [PConf] at h
    obtain ⟨l', hl, h⟩ := h
    rcases hl with hl | ⟨_, hl⟩
    · injection hl with hl
      subst hl
      exact fun x hx => wf_S sp x hg.1 (h x hx)
    · cases hl
end

theorem forall₂_mem_right {α β : Type} {R : α → β → Prop} {as : List α} {bs : List β}
    (h : List.Forall₂ R as bs) {b : β} (hb : b ∈ bs) : ∃ a ∈ as, R a b := by
  induction h with
  | nil => simp at hb
  | cons h1 _ ih =>
    rcases List.mem_cons.1 hb with rfl | hb
    · exact ⟨_, List.mem_cons_self .., h1⟩
    · obtain ⟨a, ha, h2⟩ := ih hb
      exact ⟨a, List.mem_cons_of_mem _ ha, h2⟩

theorem forall₂_mem_left {α β : Type} {R : α → β → Prop} {as : List α} {bs : List β}
    (h : List.Forall₂ R as bs) {a : α} (ha : a ∈ as) : ∃ b ∈ bs, R a b := by
  induction h with
  | nil => simp at ha
  | cons h1 _ ih =>
    rcases List.mem_cons.1 ha with rfl | ha
    · exact ⟨_, List.mem_cons_self .., h1⟩
    · obtain ⟨b, hb, h2⟩ := ih ha
      exact ⟨b, List.mem_cons_of_mem _ hb, h2⟩

theorem Hdr.mem_arr {k : Kind} {n : ℕ} {kd : Option (List (ℝ × ℝ))} {hdr : List (String × PVal)}
    {poss : List Pos} (h : Hdr k n kd hdr poss) {kv : String × PVal} (hm : kv ∈ hdr) :
    ∃ a, kv = ("discretization", .arr a) := by
  cases k with
  | plain => obtain ⟨rfl, _⟩ := h; simp at hm
  | vor1 v => obtain ⟨xs, rfl, _⟩ := h; exact ⟨_, List.mem_singleton.1 hm⟩
  | vor2 v => obtain ⟨xs, rfl, _⟩ := h; exact ⟨_, List.mem_singleton.1 hm⟩

/-- A list of nested states belongs to a nested space. -/
theorem states_space {vs : ValSpec} {sp : Space} {s : PSState} (hs : SConf vs sp s) {k : String}
    {l : List PSState} (hm : (k, PVal.states l) ∈ s.vals) :
    ∃ sp1, (k, Param.space sp1) ∈ sp.params.toList ∧ ∀ x ∈ l, SConf vs sp1 x := by
  obtain ⟨h1, hsh, hdr, rest, poss, hv, hh, hr⟩ := SConf_iff.1 hs
  rw [hv] at hm
  rcases List.mem_append.1 hm with hm | hm
  · obtain ⟨a, ha⟩ := hh.mem_arr hm
    cases ha
  · obtain ⟨⟨k', p⟩, hp, hk, hc⟩ := forall₂_mem_right hr hm
    simp only at hk hc
    subst hk
    cases p with
    | prior p =>
      rw [PConf] at hc
      obtain ⟨a, h, _⟩ := hc
      cases h
    | space sp1 =>
      rw [PConf] at hc
      obtain ⟨l', hl, h⟩ := hc
      rcases hl with hl | ⟨_, hl⟩
      · injection hl with hl
        subst hl
        exact ⟨sp1, hp, h⟩
      · cases hl

theorem dset_mid' {α : Type} {pre post : List (String × α)} {k : String} {v v' : α}
    (h : k ∉ dkeys pre) : dset (pre ++ (k, v) :: post) k v' = pre ++ (k, v') :: post := by
  rw [dset_append_right h, dset, if_pos rfl]

/-- Replacing the list of states of a nested space. -/
theorem replace_conf {vs : ValSpec} {sp : Space} (hok : SpaceOk sp) {n : ℕ} {kd : Option (List (ℝ × ℝ))}
    {pre post : List (String × PVal)} {k : String} {l l' : List PSState} {sp1 : Space}
    (hs : SConf vs sp (.mk n (pre ++ (k, .states l) :: post) kd))
    (hk : (k, Param.space sp1) ∈ sp.params.toList) (hl : l'.length = l.length)
    (hl' : ∀ x ∈ l', SConf vs sp1 x) :
    SConf vs sp (.mk n (pre ++ (k, .states l') :: post) kd) := by
  obtain ⟨h1, hsh, hdr, rest, poss, hv, hh, hr⟩ := SConf_iff.1 hs
  have hnd := keys_nodup hok hv hh hr
  have hkp : k ∉ dkeys pre := by
    intro hm
    have hnd : (dkeys (pre ++ (k, PVal.states l) :: post)).Nodup := hnd
    unfold dkeys at hnd hm
    rw [List.map_append, List.nodup_append] at hnd
    exact hnd.2.2 _ hm _ (by simp) rfl
  have hkh : k ∉ dkeys hdr := by
    rw [hh.keys]
    split
    · simp only [List.mem_singleton]
      rintro rfl
      exact hok.disc (List.mem_map_of_mem (f := (·.1)) hk)
    · simp
  have hsl := hsh (k, .states l) (by simp [PSState.vals])
  refine SConf_iff.2 ⟨h1, ?_, hdr, dset rest k (.states l'), poss, ?_, hh,
    dset_conf hr hok.nodup hk ?_⟩
  · intro kv hkv
    change kv ∈ pre ++ (k, .states l') :: post at hkv
    rcases List.mem_append.1 hkv with h | h
    · exact hsh kv (by simp [PSState.vals, h])
    · rcases List.mem_cons.1 h with rfl | h
      · refine ⟨?_, fun he => ?_⟩
        · change l'.length = n
          rw [hl]
          exact hsl.1
        · injection he with he
          apply hsl.2
          simp only [PVal.states.injEq]
          rw [he] at hl
          exact List.length_eq_zero_iff.1 hl.symm
      · exact hsh kv (by simp [PSState.vals, h])
  · change pre ++ (k, .states l') :: post = _
    change pre ++ (k, .states l) :: post = _ at hv
    rw [← dset_append_right hkh, ← hv, dset_mid' hkp]
  · rw [PConf]
    exact ⟨l', Or.inl rfl, hl'⟩

theorem SGood.sub {vs : ValSpec} {sp sp1 : Space} {k : String} (hg : SGood vs sp)
    (hk : (k, Param.space sp1) ∈ sp.params.toList) : SGood vs sp1 := by
  have := (SGood_iff.1 hg).2 _ hk
  rw [PGood] at this
  exact this.1

/-- The nested states of the space `name` are states of a nested space of that name, and may be replaced. -/
theorem within_conf {vs : ValSpec} {name : String} {s : PSState} {path : Path} {x : PSState}
    (h : Within name s path x) : ∀ {sp : Space}, SGood vs sp → SConf vs sp s →
    ∃ sp', SubSpace sp sp' ∧ sp'.info.name = name ∧ SGood vs sp' ∧ SConf vs sp' x ∧
      ∀ x' s', SConf vs sp' x' → ReplacedAt x' path s s' → SConf vs sp s' ∧ s'.kd = s.kd := by
  induction h with
  | @here s x l i h1 h2 =>
    intro sp hg hs
    obtain ⟨sp1, hk, hx⟩ := states_space hs h1
    have hname : name = sp1.info.name := (SGood_iff.1 hg).1.key _ _ hk
    refine ⟨sp1, .step hk .refl, hname.symm, hg.sub hk, hx x (List.mem_of_getElem? h2), ?_⟩
    intro x' s' hx' hrep
    have hwf := wf_S sp s hg hs
    cases hrep with
    | @cons _ _ y y' n kd pre post a b hr =>
      have hl : l = a ++ y :: b := by
        have e1 := dget_of_mem hwf.nodup h1
        have e2 : dget (PSState.mk n (pre ++ (name, PVal.states (a ++ y :: b)) :: post) kd).vals name =
            some (.states (a ++ y :: b)) := dget_of_mem hwf.nodup (by simp [PSState.vals])
        rw [e1] at e2
        injection e2 with e2
        injection e2
      subst hl
      cases hr
      refine ⟨replace_conf (SGood_iff.1 hg).1 hs hk (by simp) ?_, rfl⟩
      intro z hz
      rcases List.mem_append.1 hz with hz | hz
      · exact hx z (by simp [hz])
      · rcases List.mem_cons.1 hz with rfl | hz
        · exact hx'
        · exact hx z (by simp [hz])
  | @deeper s y x k l i path h1 hne h2 _ ih =>
    intro sp hg hs
    obtain ⟨sp1, hk, hx⟩ := states_space hs h1
    obtain ⟨sp', hsub, hname, hg', hx', hrep'⟩ := ih (hg.sub hk) (hx y (List.mem_of_getElem? h2))
    refine ⟨sp', .step hk hsub, hname, hg', hx', ?_⟩
    intro x' s' hcx hrep
    have hwf := wf_S sp s hg hs
    cases hrep with
    | @cons _ _ y0 y' n kd pre post a b hr =>
      have hl : l = a ++ y0 :: b := by
        have e1 := dget_of_mem hwf.nodup h1
        have e2 : dget (PSState.mk n (pre ++ (k, PVal.states (a ++ y0 :: b)) :: post) kd).vals k =
            some (.states (a ++ y0 :: b)) := dget_of_mem hwf.nodup (by simp [PSState.vals])
        rw [e1] at e2
        injection e2 with e2
        injection e2
      subst hl
      have hy : y0 = y := by simpa using h2
      subst hy
      have := (hrep' x' y' hcx hr).1
      refine ⟨replace_conf (SGood_iff.1 hg).1 hs hk (by simp) ?_, rfl⟩
      intro z hz
      rcases List.mem_append.1 hz with hz | hz
      · exact hx z (by simp [hz])
      · rcases List.mem_cons.1 hz with rfl | hz
        · exact this
        · exact hx z (by simp [hz])

/-! ### the perturbations of a parameterization -/

theorem SubSpace.trans {a b c : Space} (h : SubSpace a b) (h' : SubSpace b c) : SubSpace a c := by
  induction h with
  | refl => exact h'
  | step hk _ ih => exact .step hk (ih h')

mutual
theorem perts_S : ∀ (sp : Space) (g : PSPert × ℝ), g ∈ sp.perts →
    ∃ sp', SubSpace sp sp' ∧ g.1 = sp'.ownPert
  | .mk info ps, g, h => by
    rw [Space.perts, List.mem_append] at h
    rcases h with h | h
    · obtain ⟨k, sp1, sp', hk, hs, he⟩ := perts_L ps g h
      exact ⟨sp', .step hk hs, he⟩
    · rw [List.mem_singleton] at h
      subst h
      exact ⟨_, .refl, rfl⟩
theorem perts_L : ∀ (ps : ParamList) (g : PSPert × ℝ), g ∈ ps.perts →
    ∃ k sp1 sp', (k, Param.space sp1) ∈ ps.toList ∧ SubSpace sp1 sp' ∧ g.1 = sp'.ownPert
  | .nil, g, h => by rw [ParamList.perts] at h; simp at h
  | .cons name p rest, g, h => by
    rw [ParamList.perts, List.mem_append] at h
    rcases h with h | h
    · obtain ⟨sp1, sp', e, hs, he⟩ := perts_P p g h
      subst e
      exact ⟨name, sp1, sp', by rw [ParamList.toList]; exact List.mem_cons_self .., hs, he⟩
    · obtain ⟨k, sp1, sp', hk, hs, he⟩ := perts_L rest g h
      exact ⟨k, sp1, sp', by rw [ParamList.toList]; exact List.mem_cons_of_mem _ hk, hs, he⟩
theorem perts_P : ∀ (p : Param) (g : PSPert × ℝ), g ∈ p.perts →
    ∃ sp1 sp', p = .space sp1 ∧ SubSpace sp1 sp' ∧ g.1 = sp'.ownPert
  | .prior p, g, h => by rw [Param.perts] at h; simp at h
  | .space sp, g, h => by
    rw [Param.perts] at h
    obtain ⟨sp', hs, he⟩ := perts_S sp g h
    exact ⟨sp, sp', rfl, hs, he⟩
end

/-- The invariant for the parameters of a state. -/
def PInv (vs : ValSpec) (p : Problem) (params : Params) : Prop :=
  (dkeys params).Nodup ∧
  (∀ k sp, (k, sp) ∈ p.spaces → ∃ s, dget params k = some (.ps s) ∧ SConf vs sp s ∧ KdTop sp s) ∧
  ∀ k s, dget params k = some (.ps s) → k ∈ p.spaces.map (·.1)

theorem PInv.wf {vs : ValSpec} {p : Problem} (hg : ∀ k sp, (k, sp) ∈ p.spaces → SGood vs sp)
    {params : Params} (h : PInv vs p params) : ParamsWf params := by
  refine ⟨h.1, fun k s hm => ?_⟩
  have hd := dget_of_mem h.1 hm
  obtain ⟨⟨k', sp⟩, hsp, hk⟩ := List.mem_map.1 (h.2.2 k s hd)
  simp only at hk
  subst hk
  obtain ⟨s', e, hc, _⟩ := h.2.1 _ _ hsp
  rw [hd] at e
  injection e with e
  injection e with e
  subst e
  exact wf_S sp s (hg _ _ hsp) hc

theorem perturbPS_conf {vs : ValSpec} {sp : Space} (hg : SGood vs sp) {s : PSState} (hs : SConf vs sp s) :
    Post (sp.ownPert.perturbPS s)
      (fun r => r.2.1.Ok → SConf vs sp r.1 ∧ (KdTop sp s → KdTop sp r.1)) := by
  unfold PSPert.perturbPS
  refine Post.bind_any fun i => ?_
  split
  · exact Post.throw'
  · rename_i f hf
    exact (func_conf hg hs (List.mem_of_getElem? hf)).bind' fun r hr => Post.pure' hr

theorem spaces_unique {p : Problem} (hp : ProblemOk p) {k : String} {sp sp' : Space}
    (h : (k, sp) ∈ p.spaces) (h' : (k, sp') ∈ p.spaces) : sp = sp' := by
  have e1 : dget p.spaces k = some sp := dget_of_mem hp.nodup h
  have e2 : dget p.spaces k = some sp' := dget_of_mem hp.nodup h'
  rw [e1] at e2
  injection e2

theorem PInv.perturb {vs : ValSpec} {p : Problem} (hp : ProblemOk p)
    (hg : ∀ k sp, (k, sp) ∈ p.spaces → SGood vs sp) {g : PSPert × ℝ} (hgm : g ∈ p.spaces.perts)
    {s : State} (h : PInv vs p s.params) :
    Post (g.1.perturb s) (fun r => r.2.Ok → PInv vs p r.1.params) := by
  unfold Spaces.perts at hgm
  obtain ⟨⟨k0, top0⟩, htop0, hgm⟩ := List.mem_flatMap.1 hgm
  obtain ⟨sp', hsub, he⟩ := perts_S _ _ hgm
  have hocc : Occurs p sp' := ⟨k0, top0, htop0, hsub⟩
  rw [he, perturb_eq _ _ (h.wf hg)]
  refine Post.bind_any fun i => ?_
  split
  · exact Post.throw'
  · rename_i q hq
    have hinst := mem_instancesOf.1 (List.mem_of_getElem? hq)
    -- the entry that is changed
    have main : ∃ s0 sp0, dget s.params q.key = some (.ps s0) ∧ (q.key, sp0) ∈ p.spaces ∧ SConf vs sp' q.st ∧
        SGood vs sp' ∧ ∀ x', SConf vs sp' x' → (KdTop sp' q.st → KdTop sp' x') →
          SConf vs sp0 (s0.modifyAt (fun _ => x') q.path) ∧ KdTop sp0 (s0.modifyAt (fun _ => x') q.path) := by
      obtain ⟨key, path, st⟩ := q
      simp only at hinst ⊢
      cases hinst with
      | top hm =>
        have hd := dget_of_mem h.1 hm
        obtain ⟨⟨k1, top⟩, htop, hk1⟩ := List.mem_map.1 (h.2.2 _ _ hd)
        simp only at hk1
        subst hk1
        obtain ⟨s', e, hc, hkt⟩ := h.2.1 _ _ htop
        rw [hd] at e
        injection e with e
        injection e with e
        subst e
        have hsame : top = sp' := hp.names _ _ ⟨_, top, htop, .refl⟩ hocc (hp.key _ _ htop).symm
        subst hsame
        refine ⟨_, top, hd, htop, hc, hg _ _ htop, fun x' hx' hk' => ?_⟩
        rw [PSState.modifyAt]
        exact ⟨hx', hk' hkt⟩
      | @nested k1 s0 x path' hm hne hw =>
        have hd := dget_of_mem h.1 hm
        obtain ⟨⟨k1, top⟩, htop, hk1⟩ := List.mem_map.1 (h.2.2 _ _ hd)
        simp only at hk1
        subst hk1
        obtain ⟨s', e, hc, hkt⟩ := h.2.1 _ _ htop
        rw [hd] at e
        injection e with e
        injection e with e
        subst e
        obtain ⟨sp2, hsub2, hname2, hg2, hx2, hrep⟩ := within_conf hw (hg _ _ htop) hc
        have hsame : sp2 = sp' := hp.names _ _ ⟨_, top, htop, hsub2⟩ hocc hname2
        subst hsame
        refine ⟨_, top, hd, htop, hx2, hg2, fun x' hx' _ => ?_⟩
        have hr := hrep x' _ hx' (modifyAt_replaced (wf_S _ _ (hg _ _ htop) hc) hw)
        refine ⟨hr.1, fun v hv hkd => ?_⟩
        rw [hr.2]
        exact hkt v hv hkd
    obtain ⟨s0, sp0, hd, hsp0, hcx, hgx, hnew⟩ := main
    refine (perturbPS_conf hgx hcx).bind' fun r hr => Post.pure' fun hok => ?_
    obtain ⟨e1, e2⟩ := hnew r.1 (hr hok).1 (hr hok).2
    change PInv vs p (s.params.modifyAt (fun _ => r.1) q.key q.path)
    unfold Params.modifyAt
    rw [hd]
    simp only
    refine ⟨nodup_dset _ _ _ h.1, fun k sp hk => ?_, fun k s1 hk => ?_⟩
    · by_cases hkq : k = q.key
      · subst hkq
        rw [spaces_unique hp hk hsp0]
        exact ⟨_, dget_dset_same _ _ _, e1, e2⟩
      · obtain ⟨s2, e3, e4⟩ := h.2.1 k sp hk
        exact ⟨s2, by rw [dget_dset_ne _ _ _ _ hkq]; exact e3, e4⟩
    · by_cases hkq : k = q.key
      · subst hkq
        exact List.mem_map_of_mem (f := (·.1)) hsp0
      · rw [dget_dset_ne _ _ _ _ hkq] at hk
        exact h.2.2 k s1 hk

/-! ### noise and starting states -/

theorem PInv.of_dget {vs : ValSpec} {p : Problem} {params params' : Params} (h : PInv vs p params)
    (hnd : (dkeys params').Nodup)
    (hk : ∀ k, dget params' k = dget params k ∨ (∃ d, dget params' k = some (.noise d)) ∧
      k ∉ p.spaces.map (·.1)) : PInv vs p params' := by
  refine ⟨hnd, fun k sp hm => ?_, fun k s hd => ?_⟩
  · rcases hk k with h1 | ⟨_, h1⟩
    · rw [h1]; exact h.2.1 k sp hm
    · exact absurd (List.mem_map_of_mem (f := (·.1)) hm) h1
  · rcases hk k with h1 | ⟨⟨d, h1⟩, _⟩
    · rw [h1] at hd; exact h.2.2 k s hd
    · rw [h1] at hd; injection hd with hd; cases hd

theorem PInv.dset_noise {vs : ValSpec} {p : Problem} {params : Params} (h : PInv vs p params)
    {k : String} (hk : k ∉ p.spaces.map (·.1)) (d : Noise) :
    PInv vs p (dset params k (.noise d)) := by
  refine h.of_dget (nodup_dset _ _ _ h.1) fun k' => ?_
  by_cases hkk : k' = k
  · subst hkk
    exact Or.inr ⟨⟨d, dget_dset_same _ _ _⟩, hk⟩
  · exact Or.inl (dget_dset_ne _ _ _ _ hkk)

theorem perturbNoises_mem (p : Params) : ∀ (ts : List Target) (acc : List (String × TopVal)),
    (dkeys acc).Nodup →
    Post (perturbNoises p ts acc) fun new => ∀ kv ∈ new, kv ∈ acc ∨
      ∃ t ∈ ts, ∃ d, kv = (t.name, .noise d)
  | [], acc, _ => Post.pure' fun kv h => Or.inl h
  | t :: ts, acc, hnd => by
    rw [perturbNoises]
    refine Post.bind_any fun d => Post.bind_any fun d' =>
      (perturbNoises_mem p ts _ (nodup_dset _ _ _ hnd)).mono fun new hnew kv hkv => ?_
    rcases hnew kv hkv with h | ⟨t', ht', h⟩
    · rcases mem_dset hnd h with h | rfl
      · exact Or.inl h.1
      · exact Or.inr ⟨t, List.mem_cons_self .., d', rfl⟩
    · exact Or.inr ⟨t', List.mem_cons_of_mem _ ht', h⟩

theorem PInv.dupdate {vs : ValSpec} {p : Problem} : ∀ {e : List (String × TopVal)} {params : Params},
    PInv vs p params → (∀ kv ∈ e, kv.1 ∉ p.spaces.map (·.1) ∧ ∃ d, kv.2 = .noise d) →
    PInv vs p (BB.dupdate params e)
  | [], params, h, _ => h
  | (k, v) :: e, params, h, he => by
    obtain ⟨h1, d, h2⟩ := he _ (List.mem_cons_self ..)
    simp only at h1 h2
    subst h2
    exact PInv.dupdate (e := e) (params := dset params k (.noise d)) (h.dset_noise h1 d)
      fun kv hkv => he kv (List.mem_cons_of_mem _ hkv)

theorem PInv.noise {vs : ValSpec} {p : Problem} (hp : ProblemOk p) {s : State} (h : PInv vs p s.params) :
    Post (noisePerturb p.hier s) (fun r => PInv vs p r.1.params) := by
  unfold noisePerturb
  refine (perturbNoises_mem s.params p.hier [] (by simp [dkeys])).bind' fun e he => Post.pure' ?_
  refine PInv.dupdate (show PInv vs p s.params from h) fun kv hkv => ?_
  rcases he kv hkv with h1 | ⟨t, ht, d, rfl⟩
  · simp at h1
  · unfold Problem.hier at ht
    rw [List.mem_filter] at ht
    exact ⟨hp.targets t ht.1 ht.2, d, rfl⟩

theorem initTargets_inv {vs : ValSpec} {p : Problem} : ∀ (ts : List Target) (s : State),
    (∀ t ∈ ts, t.hierarchical = true → t.name ∉ p.spaces.map (·.1)) → PInv vs p s.params →
    Post (initTargets ts s) (fun s' => PInv vs p s'.params)
  | [], s, _, h => Post.pure' h
  | t :: ts, s, ht, h => by
    rw [initTargets]
    refine Post.bind' (Q := fun s' => PInv vs p s'.params) ?_ fun s' hs' =>
      initTargets_inv ts s' (fun t' h' => ht t' (List.mem_cons_of_mem _ h')) hs'
    unfold Target.initialize
    refine Post.ite' (fun hh => ?_) fun _ => Post.pure' h
    have hn := ht t (List.mem_cons_self ..) hh
    refine Post.bind_any fun x => Post.ite' (fun _ => Post.bind_any fun y => Post.pure' ?_)
      fun _ => Post.pure' ?_
    · exact h.dset_noise hn _
    · exact h.dset_noise hn _

theorem initValues_inv {vs : ValSpec} : ∀ (l : Spaces), (∀ k sp, (k, sp) ∈ l → SGood vs sp) →
    Post (Spaces.initValues l) (fun vals =>
      List.Forall₂ (fun ks kv => kv.1 = ks.1 ∧ ∃ s, kv.2 = TopVal.ps s ∧ SConf vs ks.2 s ∧ KdTop ks.2 s) l vals)
  | [], _ => Post.pure' .nil
  | (k, sp) :: l, hg => by
    rw [Spaces.initValues]
    refine (init_S sp (hg k sp (List.mem_cons_self ..))).bind' fun s hs =>
      (initValues_inv l fun k' sp' h => hg k' sp' (List.mem_cons_of_mem _ h)).bind' fun vals hv =>
      Post.pure' (.cons ⟨rfl, s, rfl, hs⟩ hv)

theorem start_inv {vs : ValSpec} {p : Problem} (hp : ProblemOk p)
    (hg : ∀ k sp, (k, sp) ∈ p.spaces → SGood vs sp) : Post p.start (fun s => PInv vs p s.params) := by
  unfold Problem.start Spaces.initialize
  refine Post.bind' (Q := fun s => PInv vs p s.params) ?_ fun s hs =>
    initTargets_inv p.targets s hp.targets hs
  refine (initValues_inv p.spaces hg).bind' fun vals hv => Post.pure' ?_
  have hkeys : dkeys vals = p.spaces.map (·.1) := by
    unfold dkeys
    clear hg
    generalize p.spaces = l at hv
    induction hv with
    | nil => rfl
    | cons h1 _ ih => rw [List.map_cons, List.map_cons, ih, h1.1]
  have hnd : (dkeys vals).Nodup := by rw [hkeys]; exact hp.nodup
  refine ⟨hnd, fun k sp hm => ?_, fun k s hd => ?_⟩
  · obtain ⟨⟨k', v⟩, hkv, h1, s, h2, h3⟩ := forall₂_mem_left hv hm
    simp only at h1 h2
    subst h1 h2
    exact ⟨s, dget_of_mem hnd hkv, h3⟩
  · rw [← hkeys]
    have := dget_some_mem hd
    exact List.mem_map_of_mem (f := (·.1)) this

/-- Every visited state satisfies the invariant. -/
theorem visits_inv {vs : ValSpec} {p : Problem} (hp : ProblemOk p)
    (hg : ∀ k sp, (k, sp) ∈ p.spaces → SGood vs sp) {s : State} (h : Visits p s) : PInv vs p s.params := by
  refine visits_params (Q := PInv vs p) ?_ ?_ ?_ h
  · rintro s ⟨t, t', hs⟩
    exact start_inv hp hg _ _ _ hs
  · intro g hgm s t new lpr t' hs he h1 h2
    exact PInv.perturb hp hg hgm hs _ _ _ he ⟨h1, h2⟩
  · intro s t new lpr t' hs he
    exact PInv.noise hp hs _ _ _ he

/-- The invariant holds for nested states. -/
theorem SConf.sub {vs : ValSpec} {sp sp' : Space} {s s' : PSState} (h : SubState sp s sp' s') :
    SGood vs sp → SConf vs sp s → SGood vs sp' ∧ SConf vs sp' s' := by
  induction h with
  | refl => exact fun hg hs => ⟨hg, hs⟩
  | @step sp sp1 sp' s x s' k l hk hl hx _ ih =>
    intro hg hs
    obtain ⟨h1, hsh, hdr, rest, poss, hv, hh, hr⟩ := SConf_iff.1 hs
    obtain ⟨v, e1, e2, e3, _⟩ := get_params (SGood_iff.1 hg).1 hv hh hr hsh hk
    simp only at e1 e2
    rw [PConf] at e2
    obtain ⟨l', hl', hc⟩ := e2
    have hll : l' = l := by
      rcases hl with hl | hl <;> rw [e1] at hl <;> injection hl with hl <;> subst hl <;>
        rcases hl' with hl' | ⟨_, hl'⟩ <;> cases hl' <;> rfl
    subst hll
    exact ih (hg.sub hk) (hc x hx)

theorem stateOf_conf {vs : ValSpec} {p : Problem} (hg : ∀ k sp, (k, sp) ∈ p.spaces → SGood vs sp)
    {params : Params} (h : PInv vs p params) {sp : Space} {s : PSState} (hs : StateOf p params sp s) :
    SGood vs sp ∧ SConf vs sp s := by
  obtain ⟨k, top, s0, h1, h2, h3⟩ := hs
  obtain ⟨s1, e1, e2, _⟩ := h.2.1 k top h1
  rw [h2] at e1
  injection e1 with e1
  injection e1 with e1
  subst e1
  exact SConf.sub h3 (hg _ _ h1) e2

end BB.Lemmas

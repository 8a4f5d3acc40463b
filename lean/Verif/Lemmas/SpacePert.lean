import Verif.Lemmas.PlainPert
import Verif.Lemmas.OwnParts

/-!
# The perturbation of a parameter space in a state with noise parameters
-/

namespace BB.Lemmas

open BB Spec Props

/-- States of parameter spaces are not nested. -/
def Loose (p : Params) : Prop := ∀ k s, (k, TopVal.ps s) ∈ p → Flat s

theorem Loose.tail {kv : String × TopVal} {p : Params} (h : Loose (kv :: p)) : Loose p :=
  fun k s hs => h k s (List.mem_cons_of_mem _ hs)

theorem countTop_loose {name : String} : ∀ {p : Params}, Loose p → (dkeys p).Nodup → (∀ s ∈ (countTop name p).2, Flat s) ∧
    (name ∉ dkeys p → (countTop name p).1 = 0) ∧ ∀ s, (name, TopVal.ps s) ∈ p → (countTop name p).1 = 1
  | [], _, _ => ⟨fun s hs => absurd hs List.not_mem_nil, fun _ => rfl, fun s hs => absurd hs List.not_mem_nil⟩
  | (k, .noise d) :: p, h, hn => by
    have hn' : k ∉ dkeys p ∧ (dkeys p).Nodup := List.nodup_cons.1 hn
    obtain ⟨h1, h2, h3⟩ := countTop_loose (name := name) h.tail hn'.2
    rw [countTop]
    refine ⟨h1, fun hm => h2 fun hm' => hm (List.mem_cons_of_mem _ hm'), fun s hs => ?_⟩
    rcases List.mem_cons.1 hs with e | hs
    · cases e
    · exact h3 s hs
  | (k, .ps s) :: p, h, hn => by
    have hn' : k ∉ dkeys p ∧ (dkeys p).Nodup := List.nodup_cons.1 hn
    obtain ⟨h1, h2, h3⟩ := countTop_loose (name := name) h.tail hn'.2
    rw [countTop]
    simp only
    by_cases hk : k = name
    · subst hk
      rw [if_pos rfl]
      refine ⟨h1, fun hm => absurd (List.mem_cons_self ..) hm, fun s' _ => ?_⟩
      simp only
      rw [h2 hn'.1]
    · rw [if_neg hk]
      refine ⟨fun s' hs' => ?_, fun hm => h2 fun hm' => hm (List.mem_cons_of_mem _ hm'), fun s' hs' => ?_⟩
      · rcases List.mem_cons.1 hs' with e | hs'
        · rw [e]
          exact h k s (List.mem_cons_self ..)
        · exact h1 s' hs'
      · rcases List.mem_cons.1 hs' with e | hs'
        · injection e with e1
          exact absurd e1.symm hk
        · exact h3 s' hs'

theorem countInstances_loose {name : String} {p : Params} (h : Loose p) (hn : (dkeys p).Nodup) {s : PSState}
    (hm : (name, TopVal.ps s) ∈ p) : countInstances name p = .ok 1 := by
  obtain ⟨h1, -, h2⟩ := countTop_loose (name := name) h hn
  unfold countInstances
  rw [countQueue_flat h1, h2 s hm]

theorem pertTop_no {g : PSPert} {target : ℕ} : ∀ {p : Params} {l : PertLocals} (t : List Draw),
    g.name ∉ dkeys p → ∃ q, g.pertTop target p l t = (.ok (l, q), t)
  | [], l, t, _ => ⟨[], rfl⟩
  | (k, .noise d) :: p, l, t, hk => by
    obtain ⟨q, hq⟩ := pertTop_no (target := target) (p := p) (l := l) t (fun hm => hk (List.mem_cons_of_mem _ hm))
    rw [PSPert.pertTop]
    exact ⟨q, hq⟩
  | (k, .ps s) :: p, l, t, hk => by
    have hk1 : k ≠ g.name := fun e => hk (by rw [← e]; exact List.mem_cons_self ..)
    obtain ⟨q, hq⟩ := pertTop_no (target := target) (p := p) (l := l) t (fun hm => hk (List.mem_cons_of_mem _ hm))
    rw [PSPert.pertTop, if_neg hk1]
    exact ⟨_, M.bind_of hq⟩

theorem pertTop_here {g : PSPert} {s new : PSState} {r : PyF} {nm : String} {t t' : List Draw}
    (hg : g.perturbPS s t = (.ok (new, r, nm), t')) : ∀ {p : Params} {l : PertLocals}, (dkeys p).Nodup →
    (g.name, TopVal.ps s) ∈ p → ∃ q, g.pertTop l.i p l t = (.ok (visited g l new r nm, q), t')
  | [], l, _, hm => by cases hm
  | (k, .noise d) :: p, l, hn, hm => by
    have hn' : k ∉ dkeys p ∧ (dkeys p).Nodup := List.nodup_cons.1 hn
    rcases List.mem_cons.1 hm with e | hm
    · cases e
    · obtain ⟨q, hq⟩ := pertTop_here hg (p := p) (l := l) hn'.2 hm
      rw [PSPert.pertTop]
      exact ⟨q, hq⟩
  | (k, .ps s') :: p, l, hn, hm => by
    have hn' : k ∉ dkeys p ∧ (dkeys p).Nodup := List.nodup_cons.1 hn
    rw [PSPert.pertTop]
    rcases List.mem_cons.1 hm with e | hm
    · injection e with e1 e2
      injection e2 with e2
      subst e2
      rw [if_pos e1.symm]
      have hv : g.visit l.i k [] s l t = (.ok (visited g l new r nm), t') := by
        unfold PSPert.visit
        rw [if_pos rfl, ← e1]
        exact M.bind_of hg
      obtain ⟨q, hq⟩ := pertTop_no (g := g) (target := l.i) (p := p) (l := (visited g l new r nm)) t' (e1 ▸ hn'.1)
      exact ⟨q, (M.bind_of hv).trans hq⟩
    · have hk1 : k ≠ g.name := by
        intro e
        refine hn'.1 ?_
        rw [e]
        exact List.mem_map.2 ⟨(g.name, TopVal.ps s), hm, rfl⟩
      obtain ⟨q, hq⟩ := pertTop_here hg (p := p) (l := l) hn'.2 hm
      rw [if_neg hk1]
      exact ⟨_, M.bind_of hq⟩

/-- The state after the perturbation of a space. -/
theorem pert_run {g : PSPert} {s : State} (hl : Loose s.params) (hn : (dkeys s.params).Nodup) {st st' : PSState}
    (hm : (g.name, TopVal.ps st) ∈ s.params) {r : PyF} {nm : String} {tp : List Draw}
    (hg : ∀ rest, g.perturbPS st (tp ++ rest) = (.ok (st', r, nm), rest)) (d : Draw) :
    ∃ new sts, (∀ rest, g.perturb s (d :: tp ++ rest) = (.ok (new, r), rest)) ∧
      new.params = dset s.params g.name (.ps st') ∧ new.cache = [("perturb_stats", .stats sts)] := by
  have hc := countInstances_loose hl hn hm
  have h0 : d.n % 1 = 0 := Nat.mod_one _
  have hz : PyF.add (.fin 0) r = r := by
    cases r with
    | fin x => exact congrArg PyF.fin (zero_add x)
    | pinf => rfl
    | ninf => rfl
    | nan => rfl
  have hmod : s.params.modifyAt (fun _ => st') g.name [] = dset s.params g.name (.ps st') := by
    unfold Params.modifyAt
    rw [dget_of_mem hn hm]
    simp only
    rw [PSState.modifyAt]
  set l := visited g { params := s.params, i := 0, lpr := .fin 0, stats := [] } st' r nm with hl'
  set sts := l.stats.map fun kv => (kv.1, kv.2 / (l.stats.map (·.2)).sum) with hsts
  refine ⟨{ s.copy with params := dset s.params g.name (.ps st'), cache := [("perturb_stats", .stats sts)] }, sts,
    fun rest => ?run, ?_, ?_⟩
  case run =>
    obtain ⟨q, hq⟩ := pertTop_here (hg rest) (p := s.params) (l := { params := s.params, i := 0, lpr := .fin 0, stats := [] }) hn hm
    unfold PSPert.perturb
    rw [hc]
    refine (M.bind_of rfl).trans ((M.bind_of (M.randIdx_run (n := 1) one_ne_zero d _)).trans ?_)
    rw [h0]
    refine (M.bind_of hq).trans ?_
    simp only
    refine (M.bind_of (pertQueue_done (target := 0) (Nat.succ_pos 0) (nodes_pos hm) rest)).trans ?_
    rw [← hl', ← hmod]
    change (Except.ok (_, PyF.add (.fin 0) r), rest) = _
    rw [hz]
    rfl
  · rfl
  · rfl

/-- The function is the one chosen. -/
theorem perturbPS_run {g : PSPert} {st st' : PSState} {r : PyF} {j : ℕ} {d : Draw} {f : PSFunc} {tp : List Draw}
    (hj : choices g.funcs.length g.weights [d] = (.ok j, [])) (hf : g.funcs[j]? = some f)
    (hrun : ∀ rest, f.run st (tp ++ rest) = (.ok (st', r), rest)) (rest : List Draw) :
    g.perturbPS st (d :: tp ++ rest) = (.ok (st', r, f.name), rest) := by
  unfold PSPert.perturbPS
  refine (M.bind_of (choices_cons hj _)).trans ?_
  simp only [hf]
  exact M.bind_of (hrun rest)

/-- A space without nested spaces has one perturbation. -/
theorem perts_of_toList : ∀ {ps : ParamList} {l : List Prior}, ps.toList = l.map (fun p => (p.name, Param.prior p)) → ps.perts = []
  | .nil, l, h => rfl
  | .cons n (.prior p) rest, l, h => by
    cases l with
    | nil => simp [ParamList.toList] at h
    | cons a l =>
      simp only [ParamList.toList, List.map_cons, List.cons.injEq] at h
      rw [ParamList.perts, perts_of_toList h.2, Param.perts]
      rfl
  | .cons n (.space s) rest, l, h => by
    cases l with
    | nil => simp [ParamList.toList] at h
    | cons a l => simp [ParamList.toList] at h

theorem perts_only {k : ℕ} {sp : Space} {prs : Fin k → Prior} (h : OnlyPriors sp prs) :
    sp.perts = [(sp.ownPert, sp.ownPert.weights.sum)] := by
  have e : sp.params.perts = [] := by
    refine perts_of_toList (l := List.ofFn prs) ?_
    rw [h.params, List.map_ofFn]
    rfl
  cases sp with
  | mk info ps =>
    rw [Space.perts]
    change ps.perts = [] at e
    rw [e]
    rfl

end BB.Lemmas

import Verif.Spec.LogPrior
import Verif.Lemmas.Undo

/-!
# The perturbation of values
-/

namespace BB.Lemmas

open BB BB.Spec

theorem randIdx_ok {n i : ℕ} {t t' : List Draw} (h : M.randIdx n t = (.ok i, t')) :
    ∃ d, t = d :: t' ∧ 0 < n ∧ i = d.n % n := by
  rcases Nat.eq_zero_or_pos n with h0 | h0
  · exact absurd (Post.randIdx' t i t' h) (by omega)
  · cases t with
    | nil => unfold M.randIdx M.draw at h; simp [h0.ne', bind] at h
    | cons d t =>
      rw [M.randIdx_run h0.ne'] at h
      injection h with h1 h2
      injection h1 with h1
      exact ⟨d, by rw [h2], h0, h1.symm⟩

theorem dkeys_dupdate {α : Type} : ∀ {e d : List (String × α)}, (∀ kv ∈ e, kv.1 ∈ dkeys d) → dkeys (dupdate d e) = dkeys d
  | [], _, _ => rfl
  | (k, v) :: e, d, h => by
    have h1 : dkeys (dset d k v) = dkeys d := by
      rw [dkeys_dset, if_pos (h _ (List.mem_cons_self ..))]
    change dkeys (dupdate (dset d k v) e) = _
    rw [dkeys_dupdate (by rw [h1]; exact fun kv hkv => h kv (List.mem_cons_of_mem _ hkv)), h1]

/-- What the loop makes of one parameter: its new values, the draw, the ratio. -/
def Changed (s : PSState) (i : ℕ) (p : Prior) (c : (String × PVal) × Draw × PyF) : Prop :=
  ∃ xs x pos std, s.get p.name = some (.arr (.vec xs)) ∧ xs[i]? = some x ∧ posAt s i = .ok pos ∧
    p.std.get pos = .ok std ∧ c.1 = (p.name, .arr (.vec (xs.set i (x + c.2.1.z * std)))) ∧
    ∀ a, p.logPrior x pos = .ok (.fin a) → ∃ y, p.logPrior (x + c.2.1.z * std) pos = .ok y ∧ c.2.2 = y.sub (.fin a)

theorem perturbPriors_form {s : PSState} {i : ℕ} : ∀ (ps : List Prior) (acc : List (String × PVal)) (lpr : PyF)
    (t t' : List Draw) (r : List (String × PVal) × PyF), (dkeys acc ++ ps.map (·.name)).Nodup →
    perturbPriors s i ps acc lpr t = (.ok r, t') →
    ∃ cs, List.Forall₂ (Changed s i) ps cs ∧ t = cs.map (·.2.1) ++ t' ∧ r.1 = acc ++ cs.map (·.1) ∧
      r.2 = lpr.add (sumF (cs.map (·.2.2)))
  | [], acc, lpr, t, t', r, _, h => by
    rw [perturbPriors, pure_ok] at h
    obtain ⟨rfl, rfl⟩ := h
    exact ⟨[], .nil, rfl, by simp, (add_zero' _).symm⟩
  | p :: rest, acc, lpr, t, t', r, hk, h => by
    rw [perturbPriors.eq_def] at h
    simp only at h
    cases hp : s.get p.name with
    | none => rw [hp] at h; cases h
    | some v =>
      rw [hp] at h
      match v, h with
      | .states l, h => cases h
      | .objs l, h => cases h
      | .arr (.pts ps), h => cases h
      | .arr (.vec xs), h =>
        simp only at h
        obtain ⟨old, t1, h1, h2⟩ := M.bind_ok.1 h
        rw [lift_ok] at h1
        obtain ⟨h1, rfl⟩ := h1
        obtain ⟨pos, t2, h3, h4⟩ := M.bind_ok.1 h2
        rw [lift_ok] at h3
        obtain ⟨h3, rfl⟩ := h3
        obtain ⟨⟨new, q⟩, t3, h5, h6⟩ := M.bind_ok.1 h4
        simp only at h6
        obtain ⟨d, std, rfl, h7, h8⟩ := perturbValue_draw h5
        subst h8
        have hnew : p.name ∉ dkeys acc := by
          rw [List.nodup_append] at hk
          exact fun hm => hk.2.2 _ hm _ (by simp) rfl
        rw [dset_new hnew] at h6
        obtain ⟨cs, h9, h10, h11, h12⟩ := perturbPriors_form rest _ _ _ _ _ (by
          rw [dkeys, List.map_append, List.map_cons, List.map_nil, List.append_assoc]
          exact hk) h6
        obtain ⟨ys, hy, hx⟩ := numAt_ok.1 h1
        injection hy with hy
        injection hy with hy
        injection hy with hy
        subst hy
        refine ⟨((p.name, .arr (.vec (xs.set i (old + d.z * std)))), d, q) :: cs, .cons
          ⟨xs, old, pos, std, hp, hx, h3, h7, rfl, fun a ha => perturbValue_ratio h5 ha⟩ h9, ?_, ?_, ?_⟩
        · rw [h10]; rfl
        · rw [h11]; simp
        · rw [h12, List.map_cons, sumF, add_assoc']

theorem changed_names {s : PSState} {i : ℕ} {ps : List Prior} {cs : List ((String × PVal) × Draw × PyF)}
    (h : List.Forall₂ (Changed s i) ps cs) : dkeys (cs.map (·.1)) = ps.map (·.name) := by
  rw [dkeys, List.map_map]
  induction h with
  | nil => rfl
  | cons a _ ih =>
    obtain ⟨_, _, _, _, _, _, _, _, e, _⟩ := a
    rw [List.map_cons, List.map_cons, ih]
    simp [e]

theorem siteAt_posAt {s : PSState} {i : ℕ} {pos : Pos} (h : SiteAt s i pos) : posAt s i = .ok pos := by
  unfold posAt
  rcases h with ⟨xs, x, h1, h2, rfl⟩ | ⟨ps, q, h1, h2, rfl⟩ | ⟨h1, rfl⟩
  · rw [h1]; simp [Arr.positions, h2]
  · rw [h1]; simp [Arr.positions, h2]
  · rw [h1]

theorem total_append (l l' : List LogP) : total (l ++ l') = total [total l, total l'] := by
  induction l with
  | nil => rw [List.nil_append, total, zero_total]
  | cons o l ih => rw [List.cons_append, total_cons, ih, total_cons o l, total_assoc]

theorem total_comm (o p : LogP) : total [o, p] = total [p, o] := by
  cases o <;> cases p <;> simp [total, add_comm]

theorem total_changed {b : ℕ → LogP} {a : ℕ → ℝ} {i : ℕ} : ∀ {n : ℕ}, (∀ j < n, j ≠ i → b j = some (a j)) →
    total ((List.range n).map b) = if i < n then total [change (a i) (b i), total ((List.range n).map fun j => some (a j))]
      else total ((List.range n).map fun j => some (a j))
  | 0, _ => by simp
  | n + 1, h => by
    have ih := total_changed (b := b) (a := a) (i := i) (n := n) fun j hj => h j (by omega)
    rw [List.range_succ, List.map_append, total_append, ih, List.map_append, total_append (List.map _ _)]
    simp only [List.map_cons, List.map_nil]
    have one : ∀ o : LogP, total [o] = o := by intro o; cases o <;> simp [total]
    rw [one, one]
    by_cases h1 : i < n
    · rw [if_pos h1, if_pos (by omega), h n (by omega) (by omega), total_assoc]
    · rw [if_neg h1]
      by_cases h2 : i < n + 1
      · have : i = n := by omega
        subst this
        rw [if_pos h2]
        generalize total (List.map (fun j => some (a j)) (List.range i)) = T
        cases b i <;> cases T <;> simp [total, change, add_comm]
      · rw [if_neg h2, h n (by omega) (by omega)]

theorem total_finite {α : Type} (l : List α) (a : α → ℝ) : ∃ A, total (l.map fun x => some (a x)) = some A := by
  induction l with
  | nil => exact ⟨0, rfl⟩
  | cons x l ih => obtain ⟨A, hA⟩ := ih; exact ⟨a x + A, by simp [total, hA]⟩

theorem spaceTotal_cons (p : Prior) (ps : List Prior) (n : ℕ) (f : String → ℕ → LogP) :
    spaceTotal (p :: ps) n f = total [total ((List.range n).map (f p.name)), spaceTotal ps n f] := by
  unfold spaceTotal
  rw [List.flatMap_cons, total_append]

theorem spaceTotal_finite (ps : List Prior) (n : ℕ) (a : String → ℕ → ℝ) :
    ∃ A, spaceTotal ps n (fun k j => some (a k j)) = some A := by
  induction ps with
  | nil => exact ⟨0, rfl⟩
  | cons p ps ih =>
    obtain ⟨A, hA⟩ := ih
    obtain ⟨B, hB⟩ := total_finite (List.range n) (a p.name)
    exact ⟨B + A, by rw [spaceTotal_cons, hA, hB]; simp [total]⟩

theorem spaceTotal_changed {b : String → ℕ → LogP} {a : String → ℕ → ℝ} {i n : ℕ} (hi : i < n) :
    ∀ {ps : List Prior}, (∀ p ∈ ps, ∀ j < n, j ≠ i → b p.name j = some (a p.name j)) →
    spaceTotal ps n b = total [total (ps.map fun p => change (a p.name i) (b p.name i)),
      spaceTotal ps n (fun k j => some (a k j))]
  | [], _ => (zero_total _).symm
  | p :: ps, h => by
    have ih := spaceTotal_changed hi (ps := ps) fun q hq => h q (List.mem_cons_of_mem _ hq)
    rw [spaceTotal_cons, spaceTotal_cons, ih, total_changed (h p (List.mem_cons_self ..)), if_pos hi, List.map_cons,
      total_cons (change _ _) (List.map _ ps)]
    generalize change (a p.name i) (b p.name i) = o1
    generalize total (List.map (fun j => some (a p.name j)) (List.range n)) = o2
    generalize total (List.map (fun p => change (a p.name i) (b p.name i)) ps) = o3
    generalize spaceTotal ps n (fun k j => some (a k j)) = o4
    cases o1 <;> cases o2 <;> cases o3 <;> cases o4 <;> simp [total]
    ring

theorem sumF_changes : ∀ {ps : List Prior} {rs : List PyF} {a : String → ℝ} {b : String → LogP},
    List.Forall₂ (fun p r => r = (change (a p.name) (b p.name)).num) ps rs →
    sumF rs = (total (ps.map fun p => change (a p.name) (b p.name))).num
  | [], _, _, _, h => by cases h; rfl
  | p :: ps, _, a, b, h => by
    cases h with
    | cons h1 h2 =>
      rw [sumF, sumF_changes h2, h1, add_num, List.map_cons, ← total_cons]

end BB.Lemmas

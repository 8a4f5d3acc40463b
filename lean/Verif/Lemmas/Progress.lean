import Verif.Spec.Progress
import Verif.Lemmas.ConformProps
import Verif.Lemmas.Undo

/-!
# No exceptions: priors, sampling, initialization
-/

namespace BB

/-- The computation returns a value with the property, or uses up the draws. -/
def Runs {α : Type} (m : M α) (P : α → Prop) : Prop :=
  ∀ t, (∃ a t', m t = (.ok a, t') ∧ P a) ∨ ∃ t', m t = (.error .tapeExhausted, t')

namespace Runs

variable {α β : Type}

theorem noRaise {m : M α} {P : α → Prop} (h : Runs m P) : Spec.NoRaise m := by
  intro t e t' he
  rcases h t with ⟨a, t1, h1, _⟩ | ⟨t1, h1⟩
  · rw [h1] at he; simp at he
  · rw [h1] at he; simp only [Prod.mk.injEq, Except.error.injEq] at he; exact he.1.symm

theorem of {m : M α} {P : α → Prop} (h : Spec.NoRaise m) (hp : Post m P) : Runs m P := by
  intro t
  match hm : m t with
  | (.ok a, t') => exact Or.inl ⟨a, t', rfl, hp t a t' hm⟩
  | (.error e, t') => exact Or.inr ⟨t', by rw [h t e t' hm]⟩

theorem post {m : M α} {P : α → Prop} (h : Runs m P) : Post m P := by
  intro t a t' e
  rcases h t with ⟨b, t1, h1, h2⟩ | ⟨t1, h1⟩
  · rw [h1] at e
    simp only [Prod.mk.injEq, Except.ok.injEq] at e
    exact e.1 ▸ h2
  · rw [h1] at e; simp at e

theorem mono {m : M α} {P Q : α → Prop} (h : Runs m P) (hi : ∀ a, P a → Q a) : Runs m Q := by
  intro t
  rcases h t with ⟨b, t1, h1, h2⟩ | h
  · exact Or.inl ⟨b, t1, h1, hi b h2⟩
  · exact Or.inr h

theorem and {m : M α} {P Q : α → Prop} (h : Runs m P) (h2 : Post m Q) : Runs m (fun a => P a ∧ Q a) :=
  of h.noRaise (h.post.and h2)

theorem pure' {a : α} {P : α → Prop} (h : P a) : Runs (pure a : M α) P :=
  fun t => Or.inl ⟨a, t, rfl, h⟩

theorem lift' {x : Except PyErr α} {P : α → Prop} (h : ∃ a, x = .ok a ∧ P a) : Runs (M.lift x) P := by
  obtain ⟨a, rfl, h⟩ := h
  exact fun t => Or.inl ⟨a, t, rfl, h⟩

theorem bind' {m : M α} {f : α → M β} {Q : α → Prop} {P : β → Prop} (hm : Runs m Q)
    (hf : ∀ a, Q a → Runs (f a) P) : Runs (m >>= f) P := by
  intro t
  rw [M.bind_run]
  rcases hm t with ⟨a, t1, h1, h2⟩ | ⟨t1, h1⟩
  · rw [h1]; exact hf a h2 t1
  · rw [h1]; exact Or.inr ⟨t1, rfl⟩

theorem ite' {c : Prop} [Decidable c] {m1 m2 : M α} {P : α → Prop} (h1 : c → Runs m1 P)
    (h2 : ¬ c → Runs m2 P) : Runs (if c then m1 else m2) P := by
  split
  · exact h1 ‹_›
  · exact h2 ‹_›

theorem draw' : Runs M.draw (fun _ => True) := by
  intro t
  cases t with
  | nil => exact Or.inr ⟨[], rfl⟩
  | cons d t => exact Or.inl ⟨d, t, rfl, trivial⟩

theorem random' : Runs M.random (fun _ => True) := draw'.bind' fun _ _ => pure' trivial

theorem uniform' {a b : ℝ} : Runs (M.uniform a b) (fun _ => True) := draw'.bind' fun _ _ => pure' trivial

theorem normal' {a b : ℝ} : Runs (M.normalvariate a b) (fun _ => True) := draw'.bind' fun _ _ => pure' trivial

theorem npNormal' {a b : ℝ} (h : 0 ≤ b) : Runs (M.npNormal a b) (fun _ => True) := by
  unfold M.npNormal
  rw [if_neg (by linarith)]
  exact normal'

theorem npLaplace' {a b : ℝ} (h : 0 ≤ b) : Runs (M.npLaplace a b) (fun _ => True) := by
  unfold M.npLaplace
  rw [if_neg (by linarith)]
  exact draw'.bind' fun _ _ => pure' trivial

theorem randint' {a b : ℕ} (h : a ≤ b) : Runs (M.randint a b) (fun i => a ≤ i ∧ i ≤ b) := by
  refine of (fun t e t' he => ?_) Post.randint'
  unfold M.randint at he
  rw [if_neg (by omega)] at he
  exact (draw'.bind' (P := fun _ => True) fun d _ => pure' trivial).noRaise t e t' he

theorem randIdx' {n : ℕ} (h : 1 ≤ n) : Runs (M.randIdx n) (fun i => i < n) := by
  refine of (fun t e t' he => ?_) Post.randIdx'
  unfold M.randIdx at he
  rw [if_neg (by omega)] at he
  exact (draw'.bind' (P := fun _ => True) fun d _ => pure' trivial).noRaise t e t' he

theorem forEach' {f : α → M β} {P : α → β → Prop} : ∀ {xs : List α}, (∀ x ∈ xs, Runs (f x) (P x)) →
    Runs (M.forEach f xs) (fun ys => List.Forall₂ P xs ys)
  | [], _ => pure' List.Forall₂.nil
  | x :: xs, h => by
    rw [M.forEach]
    exact (h x (List.mem_cons_self ..)).bind' fun y hy =>
      (forEach' fun x' hx => h x' (List.mem_cons_of_mem _ hx)).bind' fun ys hys => pure' (.cons hy hys)

theorem times' {f : M α} {P : α → Prop} (h : Runs f P) (n : ℕ) :
    Runs (M.times n f) (fun ys => ys.length = n ∧ ∀ y ∈ ys, P y) := by
  refine of ?_ (Lemmas.times_post h.post n)
  unfold M.times
  exact (forEach' (P := fun _ => P) fun _ _ => h).noRaise

theorem untilFuel' {m : M (Option α)} {P : α → Prop} (h : Runs m (fun o => ∀ a, o = some a → P a)) :
    ∀ fuel, Runs (M.untilFuel m fuel) P
  | 0 => fun t => Or.inr ⟨t, rfl⟩
  | fuel + 1 => by
    rw [M.untilFuel]
    refine h.bind' fun o ho => ?_
    cases o with
    | none => exact untilFuel' h fuel
    | some a => exact pure' (ho a rfl)

theorem until' {m : M (Option α)} {P : α → Prop} (h : Runs m (fun o => ∀ a, o = some a → P a)) :
    Runs (M.until m) P := fun t => untilFuel' h _ t

end Runs

end BB

namespace BB.Lemmas

open BB BB.Spec

/-! ### priors -/

theorem pyLog_pos {x : ℝ} (h : 0 < x) : pyLog x = .ok (Real.log x) := by
  unfold pyLog
  rw [if_pos h]

theorem defined_of {k : Kind} {h : Hyper} (hp : Positive k h) : Defined k h := fun pos hpos => by
  obtain ⟨x, hx, _⟩ := hp pos hpos
  exact ⟨x, hx⟩

theorem sample_runs {k : Kind} {q : Prior} (hq : PriorSafe k q) {pos : Pos} (hpos : PosOf k pos) :
    Runs (q.sample pos) (fun _ => True) := by
  have hd := hq.dist
  unfold Prior.sample
  split
  · rename_i vmin vmax e
    rw [e] at hd
    obtain ⟨lo, hi, h1, h2, _⟩ := hd pos hpos
    exact (Runs.lift' (P := fun _ => True) ⟨lo, h1, trivial⟩).bind' fun _ _ => (Runs.lift' (P := fun _ => True) ⟨hi, h2, trivial⟩).bind' fun _ _ => Runs.uniform'
  · rename_i mean std e
    rw [e] at hd
    obtain ⟨m, h1⟩ := hd.1 pos hpos
    obtain ⟨s, h2, _⟩ := hd.2.1 pos hpos
    exact (Runs.lift' (P := fun _ => True) ⟨m, h1, trivial⟩).bind' fun _ _ => (Runs.lift' (P := fun _ => True) ⟨s, h2, trivial⟩).bind' fun _ _ => Runs.normal'
  · rename_i mean std e
    rw [e] at hd
    obtain ⟨m, h1⟩ := hd.1 pos hpos
    obtain ⟨s, h2, h3⟩ := hd.2.1 pos hpos
    refine (Runs.lift' (P := fun _ => True) ⟨m, h1, trivial⟩).bind' fun _ _ =>
      (Runs.lift' (P := fun x => 0 < x) ⟨s, h2, h3⟩).bind' fun x hx => Runs.npLaplace' hx.le
  · rename_i e
    rw [e] at hd
    exact absurd hd id

theorem logPrior_runs {k : Kind} {q : Prior} (hq : PriorSafe k q) {pos : Pos} (hpos : PosOf k pos) (x : ℝ) :
    ∃ r, q.logPrior x pos = .ok r := by
  have hd := hq.dist
  unfold Prior.logPrior
  split
  · rename_i vmin vmax e
    rw [e] at hd
    obtain ⟨lo, hi, h1, h2, h3⟩ := hd pos hpos
    rw [h1, h2]
    by_cases hc : lo ≤ x ∧ x ≤ hi
    · refine ⟨.fin (-Real.log (hi - lo)), ?_⟩
      change (if lo ≤ x ∧ x ≤ hi then _ else _) = _
      rw [if_pos hc, pyLog_pos (by linarith)]
      rfl
    · exact ⟨.ninf, if_neg hc⟩
  · rename_i mean std e
    rw [e] at hd
    obtain ⟨m, h1⟩ := hd.1 pos hpos
    obtain ⟨s, h2, h3⟩ := hd.2.1 pos hpos
    rw [h1, h2]
    refine ⟨_, (if_neg h3.ne').trans (if_neg (not_lt.2 h3.le))⟩
  · rename_i mean std e
    rw [e] at hd
    obtain ⟨m, h1⟩ := hd.1 pos hpos
    obtain ⟨s, h2, h3⟩ := hd.2.1 pos hpos
    rw [h1, h2]
    change ∃ r, (do let l ← pyLog s; return PyF.fin _ : Except PyErr PyF) = .ok r
    rw [pyLog_pos h3]
    exact ⟨_, rfl⟩
  · rename_i e
    rw [e] at hd
    exact absurd hd id

theorem perturbValue_runs' {k : Kind} {q : Prior} (hq : PriorSafe k q) {pos : Pos} (hpos : PosOf k pos) (x : ℝ)
    (birth : Bool) (hb : birth = true → k.isDisc = true) : Runs (q.perturbValue x pos birth) (fun _ => True) := by
  have hd := hq.dist
  have hs : ∃ s, q.getStd birth pos = .ok s := by
    unfold Prior.getStd
    split
    · exact defined_of (hq.birth (hb ‹_›)) pos hpos
    · exact hq.std pos hpos
  obtain ⟨s, hs⟩ := hs
  unfold Prior.perturbValue
  split
  · rename_i vmin vmax e
    rw [e] at hd
    obtain ⟨lo, hi, h1, h2, _⟩ := hd pos hpos
    exact (Runs.lift' (P := fun _ => True) ⟨s, hs, trivial⟩).bind' fun _ _ => (Runs.lift' (P := fun _ => True) ⟨lo, h1, trivial⟩).bind' fun _ _ =>
      (Runs.lift' (P := fun _ => True) ⟨hi, h2, trivial⟩).bind' fun _ _ => Runs.normal'.bind' fun _ _ => Runs.pure' trivial
  · rename_i mean std e
    rw [e] at hd
    obtain ⟨m, h1⟩ := hd.1 pos hpos
    obtain ⟨sd, h2, h3⟩ := hd.2.1 pos hpos
    refine (Runs.lift' (P := fun _ => True) ⟨s, hs, trivial⟩).bind' fun _ _ => Runs.normal'.bind' fun _ _ =>
      (Runs.lift' (P := fun _ => True) ⟨m, h1, trivial⟩).bind' fun _ _ =>
      (Runs.lift' (P := fun x => 0 < x) ⟨sd, h2, h3⟩).bind' fun y hy => ?_
    rw [if_neg (by positivity)]
    exact Runs.pure' trivial
  · rename_i mean std e
    rw [e] at hd
    obtain ⟨m, h1⟩ := hd.1 pos hpos
    obtain ⟨sd, h2, h3⟩ := hd.2.1 pos hpos
    refine (Runs.lift' (P := fun _ => True) ⟨s, hs, trivial⟩).bind' fun _ _ => Runs.normal'.bind' fun _ _ =>
      (Runs.lift' (P := fun _ => True) ⟨m, h1, trivial⟩).bind' fun _ _ =>
      (Runs.lift' (P := fun x => 0 < x) ⟨sd, h2, h3⟩).bind' fun y hy => ?_
    rw [if_neg hy.ne']
    exact Runs.pure' trivial
  · rename_i e
    rw [e] at hd
    exact absurd hd id

theorem negLogGauss_runs {std : ℝ} (h : 0 < std) (x y : ℝ) : ∃ g, negLogGauss std x y = .ok g := by
  unfold negLogGauss
  rw [pyLog_pos (by positivity)]
  exact ⟨_, rfl⟩

theorem fromNeighbour_runs {k : Kind} {q : Prior} (hq : PriorSafe k q) (hk : k.isDisc = true) {pos : Pos}
    (hpos : PosOf k pos) (old : ℝ) : Runs (q.fromNeighbour old pos) (fun _ => True) := by
  unfold Prior.fromNeighbour
  refine (perturbValue_runs' hq hpos old true fun _ => hk).bind' fun r _ => ?_
  obtain ⟨s, h1, h2⟩ := hq.birth hk pos hpos
  refine (Runs.lift' (P := fun x => 0 < x) ⟨s, by unfold Prior.getStd; rw [if_pos rfl]; exact h1, h2⟩).bind' fun s hs => ?_
  obtain ⟨lp, h3⟩ := logPrior_runs hq hpos r.1
  refine (Runs.lift' (P := fun _ => True) ⟨lp, h3, trivial⟩).bind' fun _ _ => ?_
  obtain ⟨g, h4⟩ := negLogGauss_runs hs r.1 old
  exact (Runs.lift' (P := fun _ => True) ⟨g, h4, trivial⟩).bind' fun _ _ => Runs.pure' trivial

theorem toNeighbour_runs {k : Kind} {q : Prior} (hq : PriorSafe k q) (hk : k.isDisc = true) {pos : Pos}
    (hpos : PosOf k pos) (x y : ℝ) (acc : PyF) : ∃ r, q.toNeighbour x y pos acc = .ok r := by
  unfold Prior.toNeighbour
  obtain ⟨s, h1, h2⟩ := hq.birth hk pos hpos
  have h1' : q.getStd true pos = .ok s := by unfold Prior.getStd; rw [if_pos rfl]; exact h1
  obtain ⟨lp, h3⟩ := logPrior_runs hq hpos x
  obtain ⟨g, h4⟩ := negLogGauss_runs h2 x y
  refine ⟨(acc.sub lp).sub (.fin g), ?_⟩
  rw [h1', h3]
  change (do let g ← negLogGauss s x y; return (acc.sub lp).sub (.fin g) : Except PyErr PyF) = _
  rw [h4]
  rfl

theorem mapM_runs {α β : Type} {f : α → Except PyErr β} : ∀ {l : List α}, (∀ x ∈ l, ∃ y, f x = .ok y) →
    ∃ ys, l.mapM f = .ok ys ∧ List.Forall₂ (fun x y => f x = .ok y) l ys
  | [], _ => ⟨[], rfl, .nil⟩
  | x :: l, h => by
    obtain ⟨y, hy⟩ := h x (List.mem_cons_self ..)
    obtain ⟨ys, h1, h2⟩ := mapM_runs fun x' hx => h x' (List.mem_cons_of_mem _ hx)
    refine ⟨y :: ys, ?_, .cons hy h2⟩
    rw [List.mapM_cons, hy, h1]
    rfl

/-- A kind with a point in its domain. -/
theorem const_of_plain {h : Hyper} (hd : Defined .plain h) : Constant h := by
  obtain ⟨x, hx⟩ := hd .none trivial
  cases h with
  | const y => exact ⟨y, rfl⟩
  | line xs ys => cases hx
  | plane f => cases hx

theorem getAll_const (x : ℝ) (ps : List Pos) : (Hyper.const x).getAll ps = .ok (ps.map fun _ => x) := rfl

/-- The values of a hyper-parameter at several positions. -/
theorem getAll_runs {k : Kind} {h : Hyper} (hd : Defined k h) (hv : ∀ v, k = .vor2 v → Constant h)
    {ps : List Pos} (hps : ∀ p ∈ ps, PosOf k p) (hne : ps ≠ []) :
    ∃ xs, h.getAll ps = .ok xs ∧ List.Forall₂ (fun p x => h.get p = .ok x) ps xs := by
  have hconst : ∀ x, ∃ xs, (Hyper.const x).getAll ps = .ok xs ∧
      List.Forall₂ (fun p x' => (Hyper.const x).get p = .ok x') ps xs := by
    intro x
    refine ⟨_, rfl, ?_⟩
    clear hps hne
    induction ps with
    | nil => exact .nil
    | cons p ps ih => exact .cons (by cases p <;> rfl) ih
  cases h with
  | const x => exact hconst x
  | line xs ys =>
    have := mapM_runs (f := (Hyper.line xs ys).get) (l := ps) fun p hp => hd p (hps p hp)
    exact this
  | plane f =>
    exfalso
    cases k with
    | plain => obtain ⟨x, hx⟩ := const_of_plain hd; cases hx
    | vor1 v =>
      cases ps with
      | nil => exact hne rfl
      | cons p ps =>
        obtain ⟨x, rfl, hx⟩ := hps p (List.mem_cons_self ..)
        obtain ⟨y, hy⟩ := hd (.one x) ⟨x, rfl, hx⟩
        cases hy
    | vor2 v => obtain ⟨x, hx⟩ := hv v rfl; cases hx

theorem initialize_runs {k : Kind} {q : Prior} (hq : PriorSafe k q) {ps : List Pos} (hps : ∀ p ∈ ps, PosOf k p)
    (hne : ps ≠ []) : Runs (q.initialize ps) (fun a => ∃ xs, a = .vec xs ∧ xs.length = ps.length) := by
  have hd := hq.dist
  unfold Prior.initialize
  split
  · rename_i f hf
    exact Runs.of (hq.init f hf ps).1 fun t a t' h => (hq.init f hf ps).2 t a t' h
  rename_i hf
  rw [hf] at hd
  split
  · rename_i vmin vmax e
    rw [e] at hd
    have hb := mapM_runs (f := fun q => (do
        let a ← vmin.get q
        let b ← vmax.get q
        return (a, b) : Except PyErr (ℝ × ℝ))) (l := ps) (fun p hp => by
      obtain ⟨lo, hi, h1, h2, _⟩ := hd p (hps p hp)
      rw [h1, h2]
      exact ⟨(lo, hi), rfl⟩)
    obtain ⟨bs, h1, h2⟩ := hb
    refine (Runs.lift' (P := fun b => b = bs) ⟨bs, h1, rfl⟩).bind' fun b hb => ?_
    subst hb
    rw [if_neg (by simpa using hne)]
    refine (Runs.forEach' (P := fun _ _ => True) fun x _ => Runs.uniform').bind' fun xs hxs => Runs.pure' ?_
    exact ⟨xs, rfl, by rw [← hxs.length_eq, ← h2.length_eq]⟩
  · rename_i mean std e
    rw [e] at hd
    obtain ⟨ms, h1, h2⟩ := getAll_runs hd.1 (fun v hv => (hd.2.2 rfl v hv).1) hps hne
    obtain ⟨ss, h3, h4⟩ := getAll_runs (defined_of hd.2.1) (fun v hv => (hd.2.2 rfl v hv).2) hps hne
    refine (Runs.lift' (P := fun b => b = ms) ⟨ms, h1, rfl⟩).bind' fun b hb => ?_
    subst hb
    refine (Runs.lift' (P := fun b => b = ss) ⟨ss, h3, rfl⟩).bind' fun b' hb => ?_
    subst hb
    refine (Runs.forEach' (P := fun _ _ => True) fun x hx => Runs.npNormal' ?_).bind' fun xs hxs => Runs.pure' ?_
    · have hm := (List.of_mem_zip hx).2
      obtain ⟨j, hj, hj'⟩ := List.getElem_of_mem hm
      have h5 := (List.forall₂_iff_get.1 h4).2 j (by rw [h4.length_eq]; exact hj) hj
      obtain ⟨s, h6, h7⟩ := hd.2.1 _ (hps _ (List.get_mem ps ⟨j, by rw [h4.length_eq]; exact hj⟩))
      rw [h6] at h5
      injection h5 with h5
      have : x.2 = s := by rw [← hj', h5]; rfl
      rw [this]
      exact h7.le
    · refine ⟨xs, rfl, ?_⟩
      rw [← hxs.length_eq, List.length_zip, ← h2.length_eq, ← h4.length_eq, min_self]
  · rename_i mean std e
    rw [e] at hd
    obtain ⟨ms, h1, h2⟩ := getAll_runs hd.1 (fun v hv => (hd.2.2 rfl v hv).1) hps hne
    obtain ⟨ss, h3, h4⟩ := getAll_runs (defined_of hd.2.1) (fun v hv => (hd.2.2 rfl v hv).2) hps hne
    refine (Runs.lift' (P := fun b => b = ms) ⟨ms, h1, rfl⟩).bind' fun b hb => ?_
    subst hb
    refine (Runs.lift' (P := fun b => b = ss) ⟨ss, h3, rfl⟩).bind' fun b' hb => ?_
    subst hb
    refine (Runs.forEach' (P := fun _ _ => True) fun x hx => Runs.npLaplace' ?_).bind' fun xs hxs => Runs.pure' ?_
    · have hm := (List.of_mem_zip hx).2
      obtain ⟨j, hj, hj'⟩ := List.getElem_of_mem hm
      have h5 := (List.forall₂_iff_get.1 h4).2 j (by rw [h4.length_eq]; exact hj) hj
      obtain ⟨s, h6, h7⟩ := hd.2.1 _ (hps _ (List.get_mem ps ⟨j, by rw [h4.length_eq]; exact hj⟩))
      rw [h6] at h5
      injection h5 with h5
      have : x.2 = s := by rw [← hj', h5]; rfl
      rw [this]
      exact h7.le
    · refine ⟨xs, rfl, ?_⟩
      rw [← hxs.length_eq, List.length_zip, ← h2.length_eq, ← h4.length_eq, min_self]
  · rename_i e
    rw [e] at hd
    exact absurd hd id

end BB.Lemmas

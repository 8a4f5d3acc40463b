import Verif.Lemmas.Inversion
import Verif.Lemmas.Prior
import Verif.Lemmas.Dict
import Verif.Lemmas.Save
import Verif.Spec.Conform
import Verif.Props.C45_InsertDelete
import Mathlib.Data.List.Forall2

/-!
# The invariant of parameter-space states: definitions
-/

namespace BB

/-- A log ratio with which a proposal can be accepted. -/
def PyF.Ok (r : PyF) : Prop := r ≠ .ninf ∧ r ≠ .nan

end BB

namespace BB.Lemmas

open BB BB.Spec

theorem Ok_add {a b : PyF} (h : (a.add b).Ok) : a.Ok ∧ b.Ok := by
  obtain ⟨h1, h2⟩ := h
  cases a <;> cases b <;> simp [PyF.Ok, PyF.add] at *

/-- A property of the values of priors that the library may keep: `V` of the value of a prior at a position,
`R` of the priors of which the values are vectors.  `O`: the states of a nested space may be in an array of objects. -/
structure ValSpec where
  V : Prior → Pos → ℝ → Prop
  R : Prior → Prop
  O : Prop

/-- The values of a prior, as initialized. -/
def ValsAt (vs : ValSpec) (p : Prior) (poss : List Pos) (a : Arr) : Prop :=
  (vs.R p → ∃ xs, a = .vec xs) ∧
  ∀ xs, a = .vec xs → xs.length = poss.length → List.Forall₂ (vs.V p) poss xs

/-- The operations on the values of a prior keep the property. -/
structure ValOK (vs : ValSpec) (p : Prior) : Prop where
  none : ∀ {pos x}, vs.V p pos x → vs.V p .none x
  init : ∀ ps, Post (p.initialize ps) (ValsAt vs p ps)
  sample : ∀ pos, Post (p.sample pos) (vs.V p pos)
  perturb : ∀ old pos, Post (p.perturbValue old pos false) (fun r => r.2.Ok → vs.V p pos r.1)
  fromNb : ∀ old pos, Post (p.fromNeighbour old pos) (fun r => r.2.Ok → vs.V p pos r.1)
  move : ∀ {pos pos' x a b}, p.hasPosition = true → vs.V p pos x → p.logPrior x pos = .ok a →
    p.logPrior x pos' = .ok b → (b.sub a).Ok → vs.V p pos' x
  free : ∀ {pos pos' x}, p.hasPosition = false → vs.V p pos x → vs.V p pos' x

/-- Samples of the space have lists of states, not arrays: it is a discretization, or there is none among
its parameters. -/
def Listed (sp : Space) : Prop :=
  sp.info.kind.isDisc = true ∨ ∀ k sp1, (k, Param.space sp1) ∈ sp.params.toList → sp1.info.kind.isDisc = false

mutual
/-- Every (nested) space is as `SpaceOk` asks and every prior keeps the property. -/
def SGood (vs : ValSpec) : Space → Prop
  | .mk info ps => SpaceOk (.mk info ps) ∧ LGood vs ps
def LGood (vs : ValSpec) : ParamList → Prop
  | .nil => True
  | .cons _ p rest => PGood vs p ∧ LGood vs rest
def PGood (vs : ValSpec) : Param → Prop
  | .prior p => ValOK vs p
  | .space s => SGood vs s ∧ (vs.O ∨ Listed s)
end

/-- What `__post_init__` checks: lengths, and no empty list of states. -/
def Shape (s : PSState) : Prop := ∀ kv ∈ s.vals, kv.2.len = s.n ∧ kv.2 ≠ .states []

/-- The sites of a state, with the positions they stand for and the cached tree. -/
def Hdr (k : Kind) (n : ℕ) (kd : Option (List (ℝ × ℝ))) (hdr : List (String × PVal))
    (poss : List Pos) : Prop :=
  match k with
  | .plain => hdr = [] ∧ kd = none ∧ poss = List.replicate n .none
  | .vor1 v => ∃ xs, hdr = [("discretization", .arr (.vec xs))] ∧ kd = none ∧
      poss = xs.map .one ∧ xs.Pairwise (· ≤ ·) ∧ ∀ x ∈ xs, v.vmin ≤ x ∧ x ≤ v.vmax
  | .vor2 v => ∃ a, hdr = [("discretization", .arr a)] ∧ poss = a.positions ∧
      (∀ ks, kd = some ks → a = .pts ks) ∧
      (a = .vec [] ∨ ∃ ps, a = .pts ps ∧ ∀ q ∈ ps, InDomain v q)

mutual
/-- The invariant. -/
def SConf (vs : ValSpec) : Space → PSState → Prop
  | .mk info ps, s =>
    (info.lo ≤ s.n ∧ s.n ≤ info.hi) ∧ Shape s ∧
      ∃ hdr rest poss, s.vals = hdr ++ rest ∧ Hdr info.kind s.n s.kd hdr poss ∧ LConf vs ps poss rest
def LConf (vs : ValSpec) : ParamList → List Pos → List (String × PVal) → Prop
  | .nil, _, vals => vals = []
  | .cons name p rest, poss, vals =>
    ∃ v vals', vals = (name, v) :: vals' ∧ PConf vs p poss v ∧ LConf vs rest poss vals'
def PConf (vs : ValSpec) : Param → List Pos → PVal → Prop
  | .prior p, poss, v => ∃ a, v = .arr a ∧ ValsAt vs p poss a
  | .space sp, _, v => ∃ l, (v = .states l ∨ vs.O ∧ v = .objs l) ∧ ∀ x ∈ l, SConf vs sp x
end

/-- The invariant of one parameter and its values. -/
def KConf (vs : ValSpec) (poss : List Pos) (kp : String × Param) (kv : String × PVal) : Prop :=
  kv.1 = kp.1 ∧ PConf vs kp.2 poss kv.2

theorem LConf_iff {vs : ValSpec} {poss : List Pos} : ∀ {ps : ParamList} {vals : List (String × PVal)},
    LConf vs ps poss vals ↔ List.Forall₂ (KConf vs poss) ps.toList vals
  | .nil, vals => by
    rw [LConf, ParamList.toList, List.forall₂_nil_left_iff]
  | .cons name p rest, vals => by
    rw [LConf, ParamList.toList, List.forall₂_cons_left_iff]
    constructor
    · rintro ⟨v, vals', rfl, h1, h2⟩
      exact ⟨(name, v), vals', ⟨rfl, h1⟩, LConf_iff.1 h2, rfl⟩
    · rintro ⟨⟨k, v⟩, vals', ⟨h0, h1⟩, h2, rfl⟩
      simp only at h0
      subst h0
      exact ⟨v, vals', rfl, h1, LConf_iff.2 h2⟩

theorem SConf_iff {vs : ValSpec} {sp : Space} {s : PSState} :
    SConf vs sp s ↔ (sp.info.lo ≤ s.n ∧ s.n ≤ sp.info.hi) ∧ Shape s ∧
      ∃ hdr rest poss, s.vals = hdr ++ rest ∧ Hdr sp.info.kind s.n s.kd hdr poss ∧
        List.Forall₂ (KConf vs poss) sp.params.toList rest := by
  cases sp with
  | mk info ps =>
    rw [SConf]
    simp only [LConf_iff, Space.info, Space.params]

theorem LGood_iff {vs : ValSpec} : ∀ {ps : ParamList},
    LGood vs ps ↔ ∀ kp ∈ ps.toList, PGood vs kp.2
  | .nil => by simp [LGood, ParamList.toList]
  | .cons name p rest => by
    rw [LGood, ParamList.toList, LGood_iff]
    simp

theorem SGood_iff {vs : ValSpec} {sp : Space} :
    SGood vs sp ↔ SpaceOk sp ∧ ∀ kp ∈ sp.params.toList, PGood vs kp.2 := by
  cases sp with
  | mk info ps => rw [SGood, LGood_iff]; rfl

theorem Hdr.length {k : Kind} {n : ℕ} {kd : Option (List (ℝ × ℝ))} {hdr : List (String × PVal)}
    {poss : List Pos} (h : Hdr k n kd hdr poss)
    (hs : ∀ kv ∈ hdr, kv.2.len = n ∧ kv.2 ≠ .states []) : poss.length = n := by
  cases k with
  | plain => obtain ⟨_, _, rfl⟩ := h; simp
  | vor1 v =>
    obtain ⟨xs, rfl, _, rfl, _⟩ := h
    have := (hs _ (List.mem_singleton_self _)).1
    simpa [PVal.len, Arr.len] using this
  | vor2 v =>
    obtain ⟨a, rfl, rfl, _⟩ := h
    have := (hs _ (List.mem_singleton_self _)).1
    cases a <;> simpa [PVal.len, Arr.len, Arr.positions] using this

theorem Hdr.keys {k : Kind} {n : ℕ} {kd : Option (List (ℝ × ℝ))} {hdr : List (String × PVal)}
    {poss : List Pos} (h : Hdr k n kd hdr poss) :
    dkeys hdr = if k.isDisc then ["discretization"] else [] := by
  cases k with
  | plain => obtain ⟨rfl, _, _⟩ := h; rfl
  | vor1 v => obtain ⟨xs, rfl, _⟩ := h; rfl
  | vor2 v => obtain ⟨a, rfl, _⟩ := h; rfl

theorem KConf.keys {vs : ValSpec} {poss : List Pos} {l : List (String × Param)}
    {vals : List (String × PVal)} (h : List.Forall₂ (KConf vs poss) l vals) :
    dkeys vals = l.map (·.1) := by
  induction h with
  | nil => rfl
  | cons h1 _ ih => simp only [dkeys, List.map_cons] at *; rw [h1.1, ih]

/-- The keys of a state are distinct. -/
theorem keys_nodup {vs : ValSpec} {sp : Space} {s : PSState} (hg : SpaceOk sp) {hdr rest poss}
    (hv : s.vals = hdr ++ rest) (hh : Hdr sp.info.kind s.n s.kd hdr poss)
    (hr : List.Forall₂ (KConf vs poss) sp.params.toList rest) : (dkeys s.vals).Nodup := by
  rw [hv]
  unfold dkeys
  rw [List.map_append]
  have h1 : rest.map (·.1) = sp.params.toList.map (·.1) := KConf.keys hr
  have h2 : hdr.map (·.1) = _ := hh.keys
  rw [h1, h2]
  split
  · rw [List.singleton_append, List.nodup_cons]
    exact ⟨hg.disc, hg.nodup⟩
  · exact hg.nodup

/-! ### making states -/

theorem checkVal_ok {v : PVal} : checkVal v = .ok () ↔ v ≠ .states [] := by
  unfold checkVal
  split
  · simp
  · rename_i h
    simp only [true_iff]
    exact h

theorem checkVals_ok {n : ℕ} : ∀ {vals : List (String × PVal)},
    checkVals n vals = .ok () ↔ ∀ kv ∈ vals, kv.2.len = n ∧ kv.2 ≠ .states []
  | [] => by simp [checkVals]
  | (k, v) :: rest => by
    rw [checkVals]
    split
    · rename_i h
      constructor
      · intro h; cases h
      · intro h2; exact absurd (h2 _ (List.mem_cons_self ..)).1 h
    · rename_i h
      rw [bindE_ok]
      simp only [List.mem_cons, forall_eq_or_imp, checkVals_ok]
      constructor
      · rintro ⟨_, h1, h2⟩
        exact ⟨⟨by simpa using h, checkVal_ok.1 h1⟩, h2⟩
      · rintro ⟨⟨_, h1⟩, h2⟩
        exact ⟨(), checkVal_ok.2 h1, h2⟩

theorem mkPS_ok {n : ℕ} {vals : List (String × PVal)} {s : PSState} :
    mkPS n vals = .ok s ↔ (∀ kv ∈ vals, kv.2.len = n ∧ kv.2 ≠ .states []) ∧ s = .mk n vals none := by
  unfold mkPS
  rw [bindE_ok]
  simp only [pureE_ok]
  exact ⟨fun ⟨_, h1, h2⟩ => ⟨checkVals_ok.1 h1, h2.symm⟩, fun ⟨h1, h2⟩ => ⟨(), checkVals_ok.2 h1, h2.symm⟩⟩

theorem mkPS_shape {n : ℕ} {vals : List (String × PVal)} {s : PSState} (h : mkPS n vals = .ok s) :
    Shape s ∧ s = .mk n vals none := by
  obtain ⟨h1, rfl⟩ := mkPS_ok.1 h
  exact ⟨h1, rfl⟩

theorem setVal_ok {s s' : PSState} {k : String} {v : PVal} :
    s.setVal k v = .ok s' ↔ v ≠ .states [] ∧ s' = .mk s.n (dset s.vals k v) s.kd := by
  unfold PSState.setVal
  rw [bindE_ok]
  simp only [pureE_ok]
  exact ⟨fun ⟨_, h1, h2⟩ => ⟨checkVal_ok.1 h1, h2.symm⟩, fun ⟨h1, h2⟩ => ⟨(), checkVal_ok.2 h1, h2.symm⟩⟩

theorem dset_mid {α : Type} {a b : List (String × α)} {k : String} {v v' : α} (h : k ∉ dkeys a) :
    dset (a ++ (k, v) :: b) k v' = a ++ (k, v') :: b := by
  induction a with
  | nil => simp [dset]
  | cons kv a ih =>
    obtain ⟨k', x⟩ := kv
    simp only [dkeys, List.map_cons, List.mem_cons, not_or] at h
    rw [List.cons_append, dset, if_neg (Ne.symm h.1), ih h.2]
    rfl

theorem dget_mid {α : Type} {a b : List (String × α)} {k : String} {v : α} (h : k ∉ dkeys a) :
    dget (a ++ (k, v) :: b) k = some v := by
  induction a with
  | nil => simp [dget]
  | cons kv a ih =>
    obtain ⟨k', x⟩ := kv
    simp only [dkeys, List.map_cons, List.mem_cons, not_or] at h
    rw [List.cons_append, dget, if_neg (Ne.symm h.1), ih h.2]

/-! ### loops -/

theorem forEach_post {α β : Type} {f : α → M β} {P : α → β → Prop} (h : ∀ x, Post (f x) (P x)) :
    ∀ xs, Post (M.forEach f xs) (fun ys => List.Forall₂ P xs ys)
  | [] => Post.pure' List.Forall₂.nil
  | x :: xs => by
    rw [M.forEach]
    exact (h x).bind' fun y hy => (forEach_post h xs).bind' fun ys hys =>
      Post.pure' (List.Forall₂.cons hy hys)

theorem forEach_mem {α β : Type} {f : α → M β} {P : β → Prop} (h : ∀ x, Post (f x) P) (xs : List α) :
    Post (M.forEach f xs) (fun ys => ys.length = xs.length ∧ ∀ y ∈ ys, P y) := by
  refine (forEach_post (P := fun _ => P) h xs).mono fun ys hys => ⟨hys.length_eq.symm, ?_⟩
  induction hys with
  | nil => simp
  | cons h1 _ ih => simpa using ⟨h1, ih⟩

theorem times_post {α : Type} {f : M α} {P : α → Prop} (h : Post f P) (n : ℕ) :
    Post (M.times n f) (fun ys => ys.length = n ∧ ∀ y ∈ ys, P y) := by
  unfold M.times
  simpa using forEach_mem (f := fun _ => f) (fun _ => h) (List.range n)

/-! ### dimensions -/

theorem initDim_post {sp : Space} (h : SpaceOk sp) :
    Post sp.info.initDim (fun n => sp.info.lo ≤ n ∧ n ≤ sp.info.hi) := by
  unfold Info.initDim Info.lo Info.hi
  cases hd : sp.info.nDim with
  | some n => exact Post.pure' (by simp)
  | none =>
    refine Post.ite' (fun _ => Post.throw') fun h1 => Post.randint'.mono fun n hn => ?_
    obtain ⟨h2, h3, h4⟩ := h.dims hd
    have hle : sp.info.initMax ≤ sp.info.nMax := by
      unfold Info.initMax pyInt
      have h5 : (sp.info.nMin : ℝ) ≤ sp.info.nMax := by exact_mod_cast h2
      have h6 : (0 : ℝ) ≤ sp.info.nMin := by positivity
      have h7 : ((sp.info.nMax : ℝ) - sp.info.nMin) * sp.info.initRange + sp.info.nMin
          ≤ sp.info.nMax := by nlinarith
      rw [if_pos (by nlinarith)]
      have := Int.floor_le (((sp.info.nMax : ℝ) - sp.info.nMin) * sp.info.initRange + sp.info.nMin)
      have h8 := this.trans h7
      exact_mod_cast h8
    simp only [Option.getD_none]
    refine ⟨hn.1, hn.2.trans ?_⟩
    omega

theorem sampleDim_post (info : Info) : Post info.sampleDim (fun n => info.lo ≤ n ∧ n ≤ info.hi) := by
  unfold Info.sampleDim Info.lo Info.hi
  cases info.nDim with
  | some n => exact Post.pure' (by simp)
  | none => exact Post.randint'

/-! ### sites -/

theorem sampleBox_post {v : Vor2} (h : v.vmin.1 ≤ v.vmax.1 ∧ v.vmin.2 ≤ v.vmax.2) :
    Post v.sampleBox (fun q => (v.vmin.1 ≤ q.1 ∧ q.1 ≤ v.vmax.1) ∧ (v.vmin.2 ≤ q.2 ∧ q.2 ≤ v.vmax.2)) := by
  unfold Vor2.sampleBox
  exact (Post.uniform' h.1).bind' fun x hx => (Post.uniform' h.2).bind' fun y hy => Post.pure' ⟨hx, hy⟩

theorem sampleSite2_post {v : Vor2} (h : v.vmin.1 ≤ v.vmax.1 ∧ v.vmin.2 ≤ v.vmax.2) :
    Post v.sampleSite (InDomain v) := by
  unfold Vor2.sampleSite
  split
  · rename_i hp
    exact (sampleBox_post h).mono fun q hq => ⟨hq, fun inside hi => by rw [hp] at hi; cases hi⟩
  · rename_i inside hp
    refine until_post ((sampleBox_post h).bind' fun q hq => Post.pure' ?_)
    intro x hx
    split at hx
    · injection hx with hx
      subst hx
      exact ⟨hq, fun inside' hi => by rw [hp] at hi; injection hi with hi; subst hi; assumption⟩
    · cases hx

theorem npSort_pairwise (xs : List ℝ) : (npSort xs).Pairwise (· ≤ ·) := by
  unfold npSort
  exact List.pairwise_insertionSort _ _

theorem mem_npSort {xs : List ℝ} {x : ℝ} : x ∈ npSort xs ↔ x ∈ xs := by
  unfold npSort
  exact (List.perm_insertionSort _ xs).mem_iff

theorem sampleSites_post {sp : Space} (h : SpaceOk sp) (n : ℕ) :
    Post (sp.info.kind.sampleSites n) (fun o => match o with
      | none => sp.info.kind.isDisc = false ∧ Hdr sp.info.kind n none [] (List.replicate n .none)
      | some a => sp.info.kind.isDisc = true ∧ a.positions.length = n ∧
          Hdr sp.info.kind n none [("discretization", .arr a)] a.positions) := by
  unfold Kind.sampleSites
  have hl := h.line
  have hp := h.plane
  generalize sp.info.kind = k at *
  cases k with
  | plain => exact Post.pure' ⟨rfl, rfl, rfl, rfl⟩
  | vor1 v =>
    refine (times_post (Post.uniform' (hl v rfl)) n).bind' fun xs hxs => Post.pure' ?_
    refine ⟨rfl, ?_, npSort xs, rfl, rfl, rfl, npSort_pairwise xs, ?_⟩
    · simp only [Arr.positions, List.length_map]
      rw [npSort, List.length_insertionSort]; exact hxs.1
    · intro x hx
      exact hxs.2 x (mem_npSort.1 hx)
  | vor2 v =>
    refine (times_post (sampleSite2_post (hp v rfl)) n).bind' fun xs hxs => Post.pure' ?_
    by_cases hn : n = 0
    · rw [if_pos hn]
      exact ⟨rfl, by simp [Arr.positions, hn], _, rfl, rfl, by simp, Or.inl rfl⟩
    · rw [if_neg hn]
      exact ⟨rfl, by simp [Arr.positions, hxs.1], _, rfl, rfl, by simp, Or.inr ⟨xs, rfl, hxs.2⟩⟩

/-- Adding the tree to a state. -/
theorem withKd_conf {vs : ValSpec} {sp : Space} {s s' : PSState} (h : SConf vs sp s)
    (hk : sp.info.kind.withKd s = .ok s') :
    SConf vs sp s' ∧ (∀ v, sp.info.kind = .vor2 v → v.kdtree = true → s'.kd.isSome) := by
  unfold Kind.withKd at hk
  obtain ⟨h1, h2, hdr, rest, poss, h3, h4, h5⟩ := SConf_iff.1 h
  generalize hkind : sp.info.kind = k at *
  cases k with
  | plain => injection hk with hk; subst hk; exact ⟨h, fun v hv => by cases hv⟩
  | vor1 v => injection hk with hk; subst hk; exact ⟨h, fun v hv => by cases hv⟩
  | vor2 v =>
    simp only at hk
    split at hk
    · unfold addKd at hk
      split at hk
      · rename_i ps hps
        injection hk with hk
        subst hk
        refine ⟨SConf_iff.2 ⟨h1, h2, hdr, rest, poss, h3, ?_, h5⟩, fun _ _ _ => rfl⟩
        obtain ⟨a, e1, e2, e3, e4⟩ := h4
        rw [hkind]
        refine ⟨a, e1, e2, ?_, e4⟩
        intro ks hks
        injection hks with hks
        subst hks
        unfold PSState.get at hps
        rw [h3, e1] at hps
        simpa [dget] using hps
      · cases hk
    · rename_i hf
      injection hk with hk; subst hk
      refine ⟨h, fun v' hv' hv2 => ?_⟩
      injection hv' with hv'
      subst hv'
      exact absurd hv2 hf

end BB.Lemmas

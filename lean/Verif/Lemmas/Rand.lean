import Mathlib.Tactic.Linarith
import Verif.Model.Rand

/-!
# Reasoning about random computations
-/

namespace BB

/-- Every value that `m` can return, on whatever tape, satisfies `P`. -/
def Post {α : Type} (m : M α) (P : α → Prop) : Prop :=
  ∀ t a t', m t = (.ok a, t') → P a

namespace M

theorem pure_run {α : Type} (a : α) (t : List Draw) : (pure a : M α) t = (.ok a, t) := rfl

theorem bind_run {α β : Type} (m : M α) (f : α → M β) (t : List Draw) :
    (m >>= f) t = match m t with
      | (.ok a, t') => f a t'
      | (.error e, t') => (.error e, t') := rfl

theorem bind_ok {α β : Type} {m : M α} {f : α → M β} {t t' : List Draw} {b : β} :
    (m >>= f) t = (.ok b, t') ↔ ∃ a t1, m t = (.ok a, t1) ∧ f a t1 = (.ok b, t') := by
  rw [bind_run]
  match m t with
  | (.ok a, t1) => simp
  | (.error e, t1) => simp

theorem bind_of {α β : Type} {m : M α} {f : α → M β} {t t1 : List Draw} {a : α} (h : m t = (.ok a, t1)) :
    (m >>= f) t = f a t1 := by
  rw [bind_run, h]

theorem uniform_run (a b : ℝ) (d : Draw) (t : List Draw) :
    uniform a b (d :: t) = (.ok (a + (b - a) * d.u), t) := rfl

theorem randint_run {a b : ℕ} (h : a ≤ b) (d : Draw) (t : List Draw) :
    randint a b (d :: t) = (.ok (a + d.n % (b - a + 1)), t) := by
  unfold randint
  rw [if_neg (by omega)]
  rfl

theorem normalvariate_run (mu sigma : ℝ) (d : Draw) (t : List Draw) :
    (normalvariate mu sigma) (d :: t) = (.ok (mu + d.z * sigma), t) := rfl

theorem randIdx_run {n : ℕ} (h : n ≠ 0) (d : Draw) (t : List Draw) :
    (randIdx n) (d :: t) = (.ok (d.n % n), t) := by
  unfold randIdx
  rw [if_neg h]
  rfl

theorem throw_run {α : Type} (e : PyErr) (t : List Draw) : (throw e : M α) t = (.error e, t) := rfl

theorem lift_run {α : Type} (x : Except PyErr α) (t : List Draw) : (lift x) t = (x, t) := rfl

instance : LawfulMonad M := LawfulMonad.mk'
  (id_map := fun m => by
    funext t
    change (match m t with | (.ok a, t') => _ | (.error e, t') => _) = _
    match h : m t with
    | (.ok a, t') => rfl
    | (.error e, t') => rfl)
  (pure_bind := fun _ _ => rfl)
  (bind_assoc := fun x f g => by
    funext t
    simp only [bind_run]
    match x t with
    | (.ok a, t') => rfl
    | (.error e, t') => rfl)

end M

namespace Post

variable {α β : Type}

theorem mono {m : M α} {P Q : α → Prop} (h : Post m P) (hi : ∀ a, P a → Q a) : Post m Q :=
  fun t a t' e => hi a (h t a t' e)

theorem and {m : M α} {P Q : α → Prop} (h : Post m P) (h2 : Post m Q) :
    Post m (fun a => P a ∧ Q a) := fun t a t' e => ⟨h t a t' e, h2 t a t' e⟩

theorem pure' {a : α} {P : α → Prop} (h : P a) : Post (pure a : M α) P := by
  intro t b t' e
  rw [M.pure_run] at e
  injection e with e1 e2
  injection e1 with e1
  exact e1 ▸ h

theorem throw' {e : PyErr} {P : α → Prop} : Post (M.throw e : M α) P := by
  intro t b t' h
  rw [M.throw_run] at h
  simp at h

theorem lift' {x : Except PyErr α} {P : α → Prop} (h : ∀ a, x = .ok a → P a) :
    Post (M.lift x) P := by
  intro t b t' e
  rw [M.lift_run] at e
  injection e with e1 e2
  exact h b e1

theorem bind' {m : M α} {f : α → M β} {Q : α → Prop} {P : β → Prop} (hm : Post m Q)
    (hf : ∀ a, Q a → Post (f a) P) : Post (m >>= f) P := by
  intro t b t' e
  obtain ⟨a, t1, h1, h2⟩ := M.bind_ok.1 e
  exact hf a (hm t a t1 h1) t1 b t' h2

theorem trivial' {m : M α} : Post m (fun _ => True) := fun _ _ _ _ => trivial

theorem bind_any {m : M α} {f : α → M β} {P : β → Prop} (hf : ∀ a, Post (f a) P) :
    Post (m >>= f) P := bind' trivial' (fun a _ => hf a)

theorem ite' {c : Prop} [Decidable c] {m1 m2 : M α} {P : α → Prop} (h1 : c → Post m1 P)
    (h2 : ¬ c → Post m2 P) : Post (if c then m1 else m2) P := by
  split
  · exact h1 ‹_›
  · exact h2 ‹_›

theorem random' : Post M.random (fun u => 0 ≤ u ∧ u < 1) := by
  unfold M.random
  exact bind_any fun d => pure' d.hu

theorem uniform' {a b : ℝ} (h : a ≤ b) : Post (M.uniform a b) (fun x => a ≤ x ∧ x ≤ b) := by
  unfold M.uniform
  refine bind_any fun d => pure' ?_
  obtain ⟨h0, h1⟩ := d.hu
  constructor
  · nlinarith
  · nlinarith

theorem randint' {a b : ℕ} : Post (M.randint a b) (fun x => a ≤ x ∧ x ≤ b) := by
  unfold M.randint
  refine ite' (fun _ => throw') fun h => bind_any fun d => pure' ?_
  have := Nat.mod_lt d.n (show 0 < b - a + 1 by omega)
  omega

theorem randIdx' {n : ℕ} : Post (M.randIdx n) (fun x => x < n) := by
  unfold M.randIdx
  refine ite' (fun _ => throw') fun h => bind_any fun d => pure' ?_
  exact Nat.mod_lt _ (by omega)

end Post

end BB

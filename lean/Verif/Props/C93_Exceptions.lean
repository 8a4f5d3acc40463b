import Verif.Spec.Exceptions
import Mathlib.Logic.Function.Iterate
import Mathlib.Data.Nat.Notation

/-!
# C93: exceptions of the user's functions are reported
-/

namespace BB.Props

open BB BB.Spec

variable {R : Type}

theorem wrap_reports {cls before : String} {e : Exc} (h : e.message = .absent) : Reports (e.wrap cls before) e := by
  unfold Reports Exc.wrap
  rw [h]
  simp only [String.toList_append]
  exact List.suffix_append _ _

theorem wrap_suffix {cls before m : String} {e : Exc} (h : e.message = .str m) :
    m.toList <:+ (e.wrap cls before).text.toList := by
  unfold Exc.wrap
  rw [h]
  simp only [String.toList_append]
  exact List.suffix_append _ _

/-- C93, functions that do not fail: their result is passed on. -/
theorem C93_result (r : R) : wrapperOutcome (.ok r) = .ok r ∧ forwardOutcome (.ok r : Except Exc R) = .ok r := ⟨rfl, rfl⟩

/-- C93, functions that fail with an exception that has no attribute `message`: the exception that the chain catches, after which it tries
again, tells the class and the text of the original one. -/
theorem C93_reported (e : Exc) (hd : e.derived = true) (hm : e.message = .absent) :
    (∃ e1, wrapperOutcome (.error e : Except Exc R) = .error e1 ∧ e1.cls = "UserFunctionException" ∧
      retriedPerturb e1 = true ∧ retriedLikelihood e1 = true ∧ Reports e1 e) ∧
    ∃ e2, forwardOutcome (.error e : Except Exc R) = .error e2 ∧ e2.cls = "ForwardException" ∧ retriedLikelihood e2 = true ∧ Reports e2 e := by
  have h1 : wrapperOutcome (.error e : Except Exc R) = .error e.user := by simp [wrapperOutcome, hd]
  have hu : e.user.message = .str e.user.text := by unfold Exc.user Exc.wrap; rw [hm]
  have hud : e.user.derived = true := by unfold Exc.user Exc.wrap; rw [hm]
  have huc : e.user.cls = "UserFunctionException" := by unfold Exc.user Exc.wrap; rw [hm]
  have hfc : e.user.forward.cls = "ForwardException" := by unfold Exc.forward Exc.wrap; rw [hu]
  refine ⟨⟨e.user, h1, huc, ?_, ?_, wrap_reports hm⟩, e.user.forward, ?_, hfc, ?_, ?_⟩
  · unfold retriedPerturb; rw [huc]; rfl
  · unfold retriedLikelihood; rw [huc]; rfl
  · unfold forwardOutcome
    rw [h1]
    simp only [hud, if_true]
  · unfold retriedLikelihood; rw [hfc]; rfl
  · exact (wrap_reports (cls := "UserFunctionException") hm).trans (wrap_suffix hu)

/-- C93, exceptions with an attribute `message` that is a string: this is what is told. -/
theorem C93_message (e : Exc) (hd : e.derived = true) (m : String) (hm : e.message = .str m) :
    ∃ e2, forwardOutcome (.error e : Except Exc R) = .error e2 ∧ retriedLikelihood e2 = true ∧ m.toList <:+ e2.text.toList := by
  have h1 : wrapperOutcome (.error e : Except Exc R) = .error e.user := by simp [wrapperOutcome, hd]
  have hu : e.user.message = .str e.user.text := by unfold Exc.user Exc.wrap; rw [hm]
  have hud : e.user.derived = true := by unfold Exc.user Exc.wrap; rw [hm]
  refine ⟨e.user.forward, ?_, ?_, (wrap_suffix hm).trans (wrap_suffix hu)⟩
  · unfold forwardOutcome
    rw [h1]
    simp only [hud, if_true]
  · unfold retriedLikelihood Exc.forward Exc.wrap; rw [hu]; rfl

/-- C93, when the chain tries again: a failing perturbation of the user is tried again exactly if its exception is derived from `Exception` and
has no attribute `message` other than a string. -/
theorem C93_retried (e : Exc) (hu : e.derived = false → e.cls ≠ "UserFunctionException") :
    ∃ e1, wrapperOutcome (.error e : Except Exc R) = .error e1 ∧
      (retriedPerturb e1 = true ↔ e.derived = true ∧ e.message ≠ .other) := by
  cases hd : e.derived with
  | true =>
    refine ⟨e.user, by simp [wrapperOutcome, hd], ?_⟩
    unfold retriedPerturb Exc.user Exc.wrap
    cases hm : e.message with
    | absent => simp
    | str m => simp
    | other => simp [Exc.notString]
  | false =>
    refine ⟨e, by simp [wrapperOutcome, hd], ?_⟩
    unfold retriedPerturb
    simp [hu hd]

/-- C93, when the chain tries again after a forward function has failed: whenever the exception is derived from `Exception`. -/
theorem C93_retried_forward (e : Exc) (hu : e.derived = false → e.cls ≠ "UserFunctionException" ∧ e.cls ≠ "ForwardException") :
    ∃ e2, forwardOutcome (.error e : Except Exc R) = .error e2 ∧ (retriedLikelihood e2 = true ↔ e.derived = true) := by
  cases hd : e.derived with
  | true =>
    have h : e.user.derived = true ∧ e.user.message ≠ .other := by
      unfold Exc.user Exc.wrap
      cases e.message <;> simp [Exc.notString]
    refine ⟨e.user.forward, by simp [forwardOutcome, wrapperOutcome, hd, h.1], ?_⟩
    unfold retriedLikelihood Exc.forward Exc.wrap
    cases hm : e.user.message with
    | absent => simp
    | str m => simp
    | other => exact absurd hm h.2
  | false =>
    refine ⟨e, by simp [forwardOutcome, wrapperOutcome, hd], ?_⟩
    unfold retriedLikelihood
    simp [(hu hd).1, (hu hd).2]

/-- C93, interruptions: an exception not derived from `Exception`, such as `KeyboardInterrupt`, is passed on as it is. -/
theorem C93_interrupt (e : Exc) (hd : e.derived = false) :
    wrapperOutcome (.error e : Except Exc R) = .error e ∧ forwardOutcome (.error e : Except Exc R) = .error e := by
  have h : wrapperOutcome (.error e : Except Exc R) = .error e := by simp [wrapperOutcome, hd]
  refine ⟨h, ?_⟩
  unfold forwardOutcome
  rw [h]
  simp only [hd, Bool.false_eq_true, if_false]

/-- C93, attributes `message` that are not strings: the exception of the user's function is lost; a perturbation is not tried again but ends the run
with `TypeError`, and a forward function is reported to have failed with `TypeError`. -/
theorem C93_message_counterexample (e : Exc) (hd : e.derived = true) (hm : e.message = .other) :
    wrapperOutcome (.error e : Except Exc R) = .error Exc.notString ∧ retriedPerturb Exc.notString = false ∧
      retriedLikelihood Exc.notString = false ∧
    ∃ e2, forwardOutcome (.error e : Except Exc R) = .error e2 ∧ retriedLikelihood e2 = true ∧ Reports e2 Exc.notString := by
  have h1 : wrapperOutcome (.error e : Except Exc R) = .error Exc.notString := by
    simp [wrapperOutcome, Exc.user, Exc.wrap, hd, hm]
  refine ⟨h1, by decide, by decide, Exc.notString.forward, ?_, ?_, wrap_reports rfl⟩
  · unfold forwardOutcome
    rw [h1]
    rfl
  · unfold retriedLikelihood Exc.forward Exc.wrap Exc.notString; rfl

/-- C93, processes: an exception made from another one looks the same after it has been sent from process to process any number
of times. -/
theorem C93_transport (e : Exc) (n : ℕ) (cls before : String) (hm : e.message ≠ .other) :
    SameToUser (e.wrap cls before) ((Exc.transport before)^[n] (e.wrap cls before)) := by
  have key : ∀ (x : Exc) (a m : String), x.args = [a] → x.message = .str m → x.text = m →
      ∃ a', (x.transport before).args = [a'] ∧ (x.transport before).message = .str m ∧ (x.transport before).text = m ∧
        SameToUser x (x.transport before) := by
    intro x a m h1 h2 h3
    unfold Exc.transport
    rw [h1, h2]
    exact ⟨_, rfl, rfl, rfl, ⟨rfl, h3.symm, h2.symm, rfl⟩⟩
  have iter : ∀ (n : ℕ) (x : Exc) (a m : String), x.args = [a] → x.message = .str m → x.text = m →
      SameToUser x ((Exc.transport before)^[n] x) := by
    intro n
    induction n with
    | zero => exact fun x a m _ _ _ => ⟨rfl, rfl, rfl, rfl⟩
    | succ n ih =>
      intro x a m h1 h2 h3
      obtain ⟨a', g1, g2, g3, g4⟩ := key x a m h1 h2 h3
      have := ih _ a' m g1 g2 g3
      rw [Function.iterate_succ_apply]
      exact ⟨this.cls.trans g4.cls, this.text.trans g4.text, this.message.trans g4.message, this.derived.trans g4.derived⟩
  unfold Exc.wrap
  cases hmm : e.message with
  | absent => exact iter n _ _ _ rfl rfl rfl
  | str m => exact iter n _ _ _ rfl rfl rfl
  | other => exact absurd hmm hm

/-- C93, `args`: each time, the beginning of the message is put in front of it once more. -/
theorem C93_args (e : Exc) (cls before : String) (hm : e.message ≠ .other) :
    ∃ m, (e.wrap cls before).args = [m] ∧
      ((e.wrap cls before).transport before).args = [before ++ ("str: " ++ m)] := by
  unfold Exc.wrap
  cases hmm : e.message with
  | absent => exact ⟨_, rfl, rfl⟩
  | str m => exact ⟨_, rfl, rfl⟩
  | other => exact absurd hmm hm

/-- C93, names of wrapped functions: the name of the function; if it has none, that of the function in its attribute `func` (as `functools.partial` has);
otherwise that of its class. -/
theorem C93_name (f : Named) :
    (∀ n, f.name = some n → f.display = n) ∧
    (∀ n, f.name = none → f.funcName = some n → f.display = n) ∧
    (f.name = none → f.funcName = none → f.display = f.cls) := by
  unfold Named.display
  refine ⟨fun n h => by rw [h], fun n h1 h2 => by rw [h1, h2], fun h1 h2 => by rw [h1, h2]⟩

/-! ### examples -/

/-- `ValueError("negative velocity")`. -/
def exValue93 : Exc := ⟨"ValueError", "negative velocity", .absent, ["negative velocity"], true⟩

/-- Its report. -/
example : forwardOutcome (.error exValue93 : Except Exc Unit) = .error (Exc.forward (Exc.user exValue93)) ∧
    (Exc.forward (Exc.user exValue93)).text = "error occurred when running the forward function - error occurred when running " ++
      "the user-provided function - ValueError: negative velocity" := by
  refine ⟨rfl, ?_⟩
  decide +kernel

/-- `KeyboardInterrupt()`, and an exception the attribute `message` of which is a number. -/
example : ∃ a b : Exc, a.derived = false ∧ b.derived = true ∧ b.message = .other :=
  ⟨⟨"KeyboardInterrupt", "", .absent, [], false⟩, ⟨"HTTPError", "404", .other, ["404"], true⟩, rfl, rfl, rfl⟩

end BB.Props

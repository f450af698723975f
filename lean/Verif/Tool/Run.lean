import Verif.Trace.Context
/-!
# C132 — Running a job from the command line (cli.py:298-379)

`mplang run` and `mplang sim` build a driver, make it the current context, import the user's file, look up the entry function and call it.
The user's code is a program of the context-stack model (C10): the statements of the file, then those of the entry function.  What
shutting a driver down does is C109; which addresses the driver has is C119.
-/
namespace Verif.Tool.Run
open Verif.Trace.Ctx

/-- What `getattr(module, name, None)` can be (cli.py:316-317): nothing (or None), a value that cannot be called, or a function, with the
statements it runs and the text of its result, if the result is not None. -/
inductive Attr where
  | absent
  | value
  | func (body : List Cmd) (result : Option String)

/-- The user's file (cli.py:298-312): does it exist, does python know how to import it (the suffix), the statements of the file, and the
names it defines. -/
structure Script where
  exist : Bool
  importable : Bool
  body : List Cmd
  names : String → Attr

/-- What can be observed of a run: did the command end without an exception, the context stack, the drivers that were shut down, the
contexts the user's code saw, and the lines printed. (cli.py:335-379) -/
structure After where
  ok : Bool
  stack : Stack
  shut : List Nat
  seen : List (Option Nat)
  printed : List String

/-- `load_user_module` (cli.py:298-312): completed?, the stack, the contexts seen. -/
def load (sc : Script) (s : Stack) : Bool × Stack × List (Option Nat) :=
  if !sc.exist then (false, s, []) else if !sc.importable then (false, s, []) else execL sc.body s

/-- `cmd_run` (cli.py:335-379).  `driver` = the driver built from the configuration or the flags, none if that fails (cli.py:341-362); logging is
left out. -/
def cmdRun (driver : Option Nat) (sc : Script) (entry : String) (s : Stack) : After :=
  match driver with
  | none => ⟨false, s, [], [], []⟩
  | some d =>
    let m := load sc (push s d)
    if !m.1 then ⟨false, m.2.1, [], m.2.2, []⟩
    else match sc.names entry with
      | .func body result =>
        let r := execL body m.2.1
        ⟨r.1, pop r.2.1, [d], m.2.2 ++ r.2.2, if r.1 then result.toList else []⟩
      | _ => ⟨false, m.2.1, [], m.2.2, []⟩

/-! ## Specification -/

/-- The file can be imported, and its statements end without an exception when run inside the driver. -/
def Loads (sc : Script) (d : Nat) : Prop := sc.exist = true ∧ sc.importable = true ∧ (lexL sc.body (some d)).1 = true

/-- **C132** If the file can be imported and the entry function is found, then, however the entry function ends: the user's code saw the
driver as the current context wherever it opened no context of its own; afterwards the context stack is the one from before, exactly this
driver is shut down, and the command fails iff the entry function did; a result that is not None is printed. For code that forces no
change of the root context. -/
theorem run_cleans_up_partial (d : Nat) (sc : Script) (entry : String) (s : Stack) (body : List Cmd) (result : Option String)
    (hl : Loads sc d) (hf : sc.names entry = .func body result) (h1 : noForceL sc.body = true) (h2 : noForceL body = true) :
    cmdRun (some d) sc entry s = ⟨(lexL body (some d)).1, s, [d], (lexL sc.body (some d)).2 ++ (lexL body (some d)).2,
      if (lexL body (some d)).1 then result.toList else []⟩ := by
  obtain ⟨he, hi, hb⟩ := hl
  have e1 := execL_lex sc.body (push s d) (by simp [push]) h1
  have e2 := execL_lex body (push s d) (by simp [push]) h2
  have hc : current (push s d) = some d := rfl
  rw [hc] at e1 e2
  have hm : load sc (push s d) = ((lexL sc.body (some d)).1, push s d, (lexL sc.body (some d)).2) := by
    simp only [load, he, hi, Bool.not_true, Bool.false_eq_true, if_false, e1]
  simp only [cmdRun, hm, hb, Bool.not_true, Bool.false_eq_true, if_false, hf, e2]
  rfl

/-- A file that opens a context of its own and an entry function that raises after looking at its context. -/
example : ∃ (sc : Script) (body : List Cmd), Loads sc 7 ∧ sc.names "main" = .func body (some "42") ∧ noForceL sc.body = true ∧ noForceL body = true ∧
    cmdRun (some 7) sc "main" [1] = ⟨false, [1], [7], [some 3, some 7], []⟩ :=
  ⟨⟨true, true, [.within 3 [.observe]], fun _ => .func [.observe, .raise] (some "42")⟩, [.observe, .raise], ⟨rfl, rfl, rfl⟩, rfl, rfl, rfl, rfl⟩

mutual
/-- user code never leaves more than one context beyond those it found -/
theorem exec_length (c : Cmd) (s : Stack) : (exec c s).2.1.length ≤ max s.length 1 := by
  cases c with
  | observe => simp only [exec]; omega
  | raise => simp only [exec]; omega
  | within c body =>
    have := execL_length body (push s c)
    simp only [exec]
    generalize (execL body (push s c)).2.1 = t at this
    cases t with
    | nil => simp [pop]
    | cons x t => simp only [pop, push, List.length_cons] at this ⊢; omega
  | attempt body => simp only [exec]; exact execL_length body s
  | root c f =>
    simp only [exec, setRoot]
    cases f with
    | true => simp only [if_true, List.length_singleton]; omega
    | false =>
      cases s with
      | nil => simp [current, push]
      | cons x s => simp [current]

/-- see `exec_length` -/
theorem execL_length (cs : List Cmd) (s : Stack) : (execL cs s).2.1.length ≤ max s.length 1 := by
  cases cs with
  | nil => simp only [execL]; omega
  | cons c cs =>
    have h1 := exec_length c s
    have h2 := execL_length cs (exec c s).2.1
    simp only [execL]
    split
    · simp only; omega
    · exact h1
end

/-- **C132** From the shell, where no context is open: whatever the user's code does with contexts, forced root changes included, if the
entry function is reached then the stack is empty afterwards and the driver is shut down. -/
theorem run_from_shell_partial (d : Nat) (sc : Script) (entry : String) (body : List Cmd) (result : Option String)
    (he : sc.exist = true) (hi : sc.importable = true) (hb : (execL sc.body [d]).1 = true) (hf : sc.names entry = .func body result) :
    (cmdRun (some d) sc entry []).stack = [] ∧ (cmdRun (some d) sc entry []).shut = [d] := by
  have hm : load sc (push [] d) = execL sc.body [d] := by
    simp only [load, he, hi, Bool.not_true, Bool.false_eq_true, if_false]; rfl
  simp only [cmdRun, hm, hb, Bool.not_true, Bool.false_eq_true, if_false, hf, and_true]
  have h1 : (execL sc.body [d]).2.1.length ≤ max 1 1 := execL_length sc.body [d]
  have h2 := execL_length body (execL sc.body [d]).2.1
  generalize (execL body (execL sc.body [d]).2.1).2.1 = t at h2
  match t, h2 with
  | [], _ => rfl
  | [_], _ => rfl
  | _ :: _ :: t, h2 => simp only [List.length_cons] at h2; omega

/-- A forced root change inside a `with` block meets the hypotheses. -/
example : ∃ sc : Script, sc.exist = true ∧ sc.importable = true ∧ (execL sc.body [7]).1 = true ∧
    sc.names "main" = .func [.within 3 [.root 4 true], .observe] none ∧ (cmdRun (some 7) sc "main" []).seen = [some 9, none] :=
  ⟨⟨true, true, [.root 9 true, .observe], fun _ => .func [.within 3 [.root 4 true], .observe] none⟩, rfl, rfl, rfl, rfl, rfl⟩

/-- **C132** If no driver can be built the command fails and changes nothing. -/
theorem run_no_driver (sc : Script) (entry : String) (s : Stack) : cmdRun none sc entry s = ⟨false, s, [], [], []⟩ := rfl

/-- **C132** (violated) If anything fails between building the driver and calling the entry function (the file is missing, cannot be
imported, raises, or has no function of that name), the command fails, the driver is still the current context afterwards, and it is not
shut down. -/
theorem run_failed_load_violated (d : Nat) (sc : Script) (entry : String) (s : Stack) (h1 : noForceL sc.body = true)
    (hn : ¬ (Loads sc d ∧ ∃ body result, sc.names entry = .func body result)) :
    (cmdRun (some d) sc entry s).ok = false ∧ (cmdRun (some d) sc entry s).stack = d :: s ∧ (cmdRun (some d) sc entry s).shut = [] ∧
      (cmdRun (some d) sc entry s).printed = [] := by
  have e1 := execL_lex sc.body (push s d) (by simp [push]) h1
  have hc : current (push s d) = some d := rfl
  rw [hc] at e1
  have hs : (load sc (push s d)).2.1 = d :: s := by
    simp only [load]
    split
    · rfl
    · split
      · rfl
      · rw [e1]; rfl
  by_cases hm : (load sc (push s d)).1 = true
  · have hL : Loads sc d := by
      simp only [load] at hm
      split at hm
      · cases hm
      · split at hm
        · cases hm
        · next a b =>
          rw [e1] at hm
          exact ⟨by simpa using a, by simpa using b, hm⟩
    simp only [cmdRun, hm, Bool.not_true, Bool.false_eq_true, if_false]
    split
    · next body result he => exact absurd ⟨hL, body, result, he⟩ hn
    · exact ⟨rfl, hs, rfl, rfl⟩
  · simp only [Bool.not_eq_true] at hm
    simp only [cmdRun, hm, Bool.not_false, if_true]
    exact ⟨trivial, hs, trivial, trivial⟩

/-- a misspelt entry function -/
example : ∃ sc : Script, noForceL sc.body = true ∧ Loads sc 7 ∧ ¬ (∃ body result, sc.names "mian" = .func body result) ∧
    (∃ body result, sc.names "main" = .func body result) :=
  ⟨⟨true, true, [], fun n => if n = "main" then .func [] none else .absent⟩, rfl, ⟨rfl, rfl, rfl⟩,
    by rintro ⟨_, _, h⟩; simp at h, ⟨[], none, rfl⟩⟩

/-- **C132** (violated) A job that is started inside another context and forces a change of the root context loses the outer context. -/
theorem run_forced_root_violated : ∃ (sc : Script) (body : List Cmd), Loads sc 7 ∧ sc.names "main" = .func body none ∧
    (cmdRun (some 7) sc "main" [1]).ok = true ∧ (cmdRun (some 7) sc "main" [1]).stack = [] :=
  ⟨⟨true, true, [], fun _ => .func [.root 9 true] none⟩, [.root 9 true], ⟨rfl, rfl, rfl⟩, rfl, rfl, rfl⟩

end Verif.Tool.Run

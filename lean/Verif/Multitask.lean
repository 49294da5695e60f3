import Verif.Py.Err
import Verif.Py.Float

/-!
# Model of `/repo/jsons/_multitasking.py` and its two callers

A started task is a little machine that runs `_fill` on its slice.  The steps
of different tasks may be interleaved in any order; all tasks write into one
shared list of results.  `obj[i_]` and the call of `func` are one step, the
assignment `list_to_fill[i_] = loaded` another one.

Simplifications: `func` does not touch the shared list; threads and processes
behave alike (an exception in a task ends that task only and is not seen by the
task that joins it); tasks that are started later are just tasks that make their
first step later; starting a task does not fail.
-/

set_option autoImplicit false

namespace Verif.Multitask
open Verif

/-- `tasks_used = min(tasks, len(obj))`, `/repo/jsons/_multitasking.py` line 51. -/
def tasksUsed (tasks len : Nat) : Nat := min tasks len

/-- `tasks_left = tasks - tasks_used or 1`, `/repo/jsons/_multitasking.py` line 52. -/
def tasksLeft (tasks len : Nat) : Nat :=
  let d := tasks - tasksUsed tasks len
  if d = 0 then 1 else d

/-- `slice_size = int(len(obj) / tasks_used)`, `/repo/jsons/_multitasking.py`
line 55; a float division followed by a truncation. -/
def sliceSize (R : Rounding) (len used : Nat) : Nat :=
  ⌊R.fl ((len : ℚ) / used)⌋.toNat

/-- The `(start, end)` pairs of the tasks that are started, in order;
`/repo/jsons/_multitasking.py` lines 50-67.  The error is that of line 55. -/
def startTasks (R : Rounding) (tasks len : Nat) : Except ErrKind (List (Nat × Nat)) :=
  let used := tasksUsed tasks len                           -- line 51
  if used = 0 then .error .zeroDivisionError                -- line 55
  else
    let size := sliceSize R len used
    let rest := len % used                                  -- line 56
    .ok ((List.range used).map fun i =>                     -- line 57
      let start := i * size                                 -- line 58
      let stop := (i + 1) * size                            -- line 59
      (start, if i = used - 1 then stop + rest else stop))  -- lines 60-61

/-- Where a task is in the body of the loop of `_fill`,
`/repo/jsons/_multitasking.py` lines 80-82: about to evaluate line 81, about to
execute line 82 with the given value, ended by an exception, or returned. -/
inductive Phase (ε β : Type) where
  | ready
  | loaded (v : β)
  | raised (e : ε)
  | done

/-- A started task: its slice (`args` of `/repo/jsons/_multitasking.py` line 64)
and the value of the loop variable `i_` (line 80). -/
structure Task (ε β : Type) where
  start : Nat
  stop : Nat
  pos : Nat
  phase : Phase ε β

/-- The shared list and the tasks; `/repo/jsons/_multitasking.py` lines 21, 50. -/
structure State (ε β : Type) where
  results : List β
  tasks : List (Task ε β)

/-- One step of one task in `_fill`, `/repo/jsons/_multitasking.py` lines 80-82.
`R a o` says that `func(a, ...)` may have the outcome `o`. -/
inductive Step {α ε β : Type} (R : α → Except ε β → Prop) (obj : List α) :
    State ε β → State ε β → Prop
  /-- Line 81 returns. -/
  | call {s : State ε β} {k : Nat} {t : Task ε β} {a : α} {v : β}
      (hk : s.tasks[k]? = some t) (hp : t.phase = .ready) (hi : t.pos < t.stop)
      (ha : obj[t.pos]? = some a) (hr : R a (.ok v)) :
      Step R obj s { s with tasks := s.tasks.set k { t with phase := .loaded v } }
  /-- Line 81 raises: the task is over. -/
  | fail {s : State ε β} {k : Nat} {t : Task ε β} {a : α} {e : ε}
      (hk : s.tasks[k]? = some t) (hp : t.phase = .ready) (hi : t.pos < t.stop)
      (ha : obj[t.pos]? = some a) (hr : R a (.error e)) :
      Step R obj s { s with tasks := s.tasks.set k { t with phase := .raised e } }
  /-- Line 82 stores, and the loop goes on. -/
  | store {s : State ε β} {k : Nat} {t : Task ε β} {v : β}
      (hk : s.tasks[k]? = some t) (hp : t.phase = .loaded v) :
      Step R obj s
        { results := s.results.set t.pos v
          tasks := s.tasks.set k { t with pos := t.pos + 1, phase := .ready } }
  /-- The loop is over. -/
  | finish {s : State ε β} {k : Nat} {t : Task ε β}
      (hk : s.tasks[k]? = some t) (hp : t.phase = .ready) (hi : ¬ t.pos < t.stop) :
      Step R obj s { s with tasks := s.tasks.set k { t with phase := .done } }

/-- Any number of steps. -/
inductive Steps {α ε β : Type} (R : α → Except ε β → Prop) (obj : List α) :
    State ε β → State ε β → Prop
  | refl (s : State ε β) : Steps R obj s s
  | tail {s s' s'' : State ε β} : Steps R obj s s' → Step R obj s' s'' → Steps R obj s s''

/-- `task.join()` returns for every task, `/repo/jsons/_multitasking.py` lines
25-26. -/
def Joined {ε β : Type} (s : State ε β) : Prop :=
  ∀ t ∈ s.tasks, t.phase = .done ∨ ∃ e, t.phase = .raised e

/-- The state when the tasks have been created: `[0] * len(obj)` and one task per
slice; `/repo/jsons/_multitasking.py` lines 33, 62-66.  `zero` is the value 0. -/
def initState {ε β : Type} (zero : β) (len : Nat) (slices : List (Nat × Nat)) : State ε β where
  results := List.replicate len zero
  tasks := slices.map fun p => ⟨p.1, p.2, p.1, .ready⟩

/-- `MultiTask fl zero R obj tasks out`: `multi_task(func, obj, tasks, ...)` can
have the outcome `out`; `/repo/jsons/_multitasking.py` lines 14-28. -/
inductive MultiTask {α ε β : Type} (fl : Rounding) (zero : β)
    (R : α → Except ε β → Prop) (obj : List α) (tasks : Nat) : Except ErrKind (List β) → Prop
  | error {e : ErrKind} (h : startTasks fl tasks obj.length = .error e) :
      MultiTask fl zero R obj tasks (.error e)
  | done {slices : List (Nat × Nat)} {s : State ε β}
      (h : startTasks fl tasks obj.length = .ok slices)
      (hs : Steps R obj (initState zero obj.length slices) s) (hj : Joined s) :
      MultiTask fl zero R obj tasks (.ok s.results)

/-- The keyword arguments of the element calls that differ between the
sequential and the parallel branch. -/
structure ElemKw (Fork : Type) where
  tasks : Nat
  fork : Fork

/-- The loop of `_do_load`, `/repo/jsons/deserializers/default_list.py` lines
56-69, without the wording of the error (that is modelled in
`Verif.Core.Load`). -/
def sequential {α ε β : Type} (f : α → Except ε β) : List α → Except ε (List β)
  | [] => .ok []
  | a :: as => do
    let b ← f a
    let bs ← sequential f as
    return b :: bs

/-- Failures that can be seen by the caller of the list (de)serializers. -/
inductive ListErr (ε : Type) where
  /-- raised by the element call -/
  | elem (e : ε)
  /-- raised by the list code itself -/
  | own (k : ErrKind)

/-- `default_list_deserializer`, `/repo/jsons/deserializers/default_list.py`
lines 41-47.  `load` is the element call `load(elem, cls=cls_, ...)`; in the
sequential branch it gets `tasks=1` and the `fork_inst` of the caller (line 59),
in the parallel branch `tasks=tasks_left` (`_multitasking.py` line 81) and the
default state, because `fork_inst` is not passed on (line 44). -/
inductive ListLoad {α ε β Fork : Type} (fl : Rounding) (zero : β) (default : Fork)
    (load : ElemKw Fork → α → Except ε β) (obj : List α) (tasks : Int) (fork : Fork) :
    Except (ListErr ε) (List β) → Prop
  | seqOk {bs : List β} (h : tasks = 1) (hs : sequential (load ⟨1, fork⟩) obj = .ok bs) :
      ListLoad fl zero default load obj tasks fork (.ok bs)
  | seqErr {e : ε} (h : tasks = 1) (hs : sequential (load ⟨1, fork⟩) obj = .error e) :
      ListLoad fl zero default load obj tasks fork (.error (.elem e))
  | parOk {n : Nat} {bs : List β} (h : tasks > 1) (hn : tasks = n)
      (hm : MultiTask fl zero (fun a o => o = load ⟨tasksLeft n obj.length, default⟩ a)
        obj n (.ok bs)) :
      ListLoad fl zero default load obj tasks fork (.ok bs)
  | parErr {n : Nat} {k : ErrKind} (h : tasks > 1) (hn : tasks = n)
      (hm : MultiTask fl zero (fun a o => o = load ⟨tasksLeft n obj.length, default⟩ a)
        obj n (.error k)) :
      ListLoad fl zero default load obj tasks fork (.error (.own k))
  | invalid (h : tasks < 1) :
      ListLoad fl zero default load obj tasks fork (.error (.own .jsonsError))

/-- `default_iterable_serializer`, `/repo/jsons/serializers/default_iterable.py`
lines 42-49.  `dump` is the element call with its class; in the sequential
branch no `tasks` is given (so 1), in the parallel branch it is set to 1 (line
72); all other keyword arguments are the same. -/
inductive IterDump {α ε β : Type} (fl : Rounding) (zero : β)
    (dump : α → Except ε β) (obj : List α) (tasks : Int) :
    Except (ListErr ε) (List β) → Prop
  | seqOk {bs : List β} (h : tasks < 2) (hs : sequential dump obj = .ok bs) :
      IterDump fl zero dump obj tasks (.ok bs)
  | seqErr {e : ε} (h : tasks < 2) (hs : sequential dump obj = .error e) :
      IterDump fl zero dump obj tasks (.error (.elem e))
  | parOk {n : Nat} {bs : List β} (h : 2 ≤ tasks) (hn : tasks = n)
      (hm : MultiTask fl zero (fun a o => o = dump a) obj n (.ok bs)) :
      IterDump fl zero dump obj tasks (.ok bs)
  | parErr {n : Nat} {k : ErrKind} (h : 2 ≤ tasks) (hn : tasks = n)
      (hm : MultiTask fl zero (fun a o => o = dump a) obj n (.error k)) :
      IterDump fl zero dump obj tasks (.error (.own k))

/-- Nested lists of values that are loaded by an element function. -/
inductive Doc (α : Type) where
  | leaf (a : α)
  | list (ds : List (Doc α))

/-- Sequential loading of nested lists (`tasks=1` all the way down, see
`/repo/jsons/deserializers/default_list.py` line 59).  `none` stands for an
exception; `f` is the function for the values that are not lists. -/
def Doc.loadSeq {α β : Type} (f : α → Option β) : Doc α → Option (Doc β)
  | .leaf a => (f a).map .leaf
  | .list ds => (go ds).map .list
where
  /-- the loop over the elements -/
  go : List (Doc α) → Option (List (Doc β))
    | [] => some []
    | d :: ds => (d.loadSeq f).bind fun r => (go ds).map (r :: ·)

/-- `f a` as an outcome; `()` stands for any exception. -/
def toOutcome {β : Type} : Option β → Except Unit β
  | some b => .ok b
  | none => .error ()

/-- `Doc.Load fl zero f depth tasks d out`: loading `d`, nested at most `depth`
deep, with `tasks` tasks can have the outcome `out`.  A list with `tasks=1` is
loaded sequentially, otherwise by `multi_task`, which hands `tasks_left` tasks
to the loading of every element; `/repo/jsons/deserializers/default_list.py`
lines 41-44, `/repo/jsons/_multitasking.py` lines 52, 64, 81.  `tasks` is at
least 1 (for 0 the code raises `JsonsError`, which is not modelled here). -/
def Doc.Load {α β : Type} (fl : Rounding) (zero : Doc β) (f : α → Option β) :
    (depth tasks : Nat) → Doc α → Except Unit (Doc β) → Prop
  | 0, _, _, _ => False
  | _ + 1, _, .leaf a, out => out = toOutcome ((f a).map .leaf)
  | depth + 1, tasks, .list ds, out =>
    if tasks = 1 then out = toOutcome ((Doc.list ds).loadSeq f)
    else
      (∃ rs, MultiTask fl zero (Doc.Load fl zero f depth (tasksLeft tasks ds.length)) ds tasks
        (.ok rs) ∧ out = .ok (.list rs)) ∨
      (∃ k, MultiTask fl zero (Doc.Load fl zero f depth (tasksLeft tasks ds.length)) ds tasks
        (.error k) ∧ out = .error ())

end Verif.Multitask

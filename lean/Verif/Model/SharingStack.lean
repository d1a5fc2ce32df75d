import Verif.Py.Basic

/-!
# The stack of sharing contexts (opt_einsum/sharing.py:30-81)

`_SHARING_STACK` is shared by all threads. Threads are interleaved between the single dictionary and list operations (what CPython
executes atomically); every thread runs a program of context entries and exits. `C` is the type of caches.
-/

namespace OE.Sharing
open OE
variable {C : Type}

/-- `_SHARING_STACK` (sharing.py:30): thread ident to list of caches, the innermost last. -/
abbrev Stack (C : Type) := Dict Nat (List C)

/-- `_SHARING_STACK[tid]` on a `defaultdict(list)`: a missing entry is created. -/
def touch (st : Stack C) (tid : Nat) : List C × Stack C :=
  match st.get? tid with
  | some l => (l, st)
  | none => ([], st.set tid [])

/-- `currently_sharing()` (sharing.py:33-35). -/
def currentlySharing (st : Stack C) (tid : Nat) : Bool := st.has tid

/-- `get_sharing_cache()` (sharing.py:38-40): `IndexError` on an empty list; the lookup may create the entry. -/
def getSharingCache (st : Stack C) (tid : Nat) : Except PyErr C × Stack C :=
  let (l, st') := touch st tid
  match l.getLast? with
  | some c => (.ok c, st')
  | none => (.error .index, st')

/-- What a thread does with contexts: `with shared_intermediates(c)` is entered, left (normally or by an exception: the `finally`
clause runs in both cases), or the active cache is asked for. -/
inductive Cmd (C : Type)
  | enter (c : C)
  | leave
  | getCache

/-- Where a thread is inside the current command. -/
inductive Pc (C : Type)
  /-- between two commands -/
  | idle
  /-- in `_add_sharing_cache` (sharing.py:44), the list is looked up, `append(c)` is next -/
  | append (c : C)
  /-- in `_remove_sharing_cache` (sharing.py:49), the list is looked up, `pop()` is next -/
  | pop
  /-- in `_remove_sharing_cache` (sharing.py:50), the emptiness test is next -/
  | check
  /-- in `_remove_sharing_cache` (sharing.py:51), `del` is next -/
  | del

/-- All threads: the shared dictionary, every thread's position and the commands it still has to do. -/
structure Sys (C : Type) where
  stack : Stack C
  pc : Nat → Pc C
  prog : Nat → List (Cmd C)

/-- One atomic step of thread `tid`. -/
def stepThread (s : Sys C) (tid : Nat) : Except PyErr (Sys C) :=
  let setPc (p : Pc C) : Nat → Pc C := fun t => if t = tid then p else s.pc t
  match s.pc tid with
  | .idle =>
    match s.prog tid with
    | [] => .ok s
    | cmd :: rest =>
      let prog' : Nat → List (Cmd C) := fun t => if t = tid then rest else s.prog t
      match cmd with
      | .enter c => .ok { stack := (touch s.stack tid).2, pc := setPc (.append c), prog := prog' }
      | .leave => .ok { stack := (touch s.stack tid).2, pc := setPc .pop, prog := prog' }
      | .getCache => do
        let _ ← (getSharingCache s.stack tid).1
        .ok { stack := (getSharingCache s.stack tid).2, pc := s.pc, prog := prog' }
  | .append c => .ok { s with stack := s.stack.set tid (((s.stack.get? tid).getD []) ++ [c]), pc := setPc .idle }
  | .pop =>
    match (s.stack.get? tid).getD [] with
    | [] => .error .index
    | l => .ok { s with stack := s.stack.set tid l.dropLast, pc := setPc .check }
  | .check =>
    match touch s.stack tid with
    | ([], st') => .ok { s with stack := st', pc := setPc .del }
    | (_, st') => .ok { s with stack := st', pc := setPc .idle }
  | .del =>
    if s.stack.has tid then .ok { s with stack := s.stack.del tid, pc := setPc .idle } else .error .key

/-- A schedule: which thread makes the next step. -/
def runSchedule (s : Sys C) : List Nat → Except PyErr (Sys C)
  | [] => .ok s
  | tid :: sched => do
    let s' ← stepThread s tid
    runSchedule s' sched

/-- One atomic step of thread `tid`, which catches the `IndexError` of `get_sharing_cache` (sharing.py:38-40) and goes on. -/
def stepCaught (s : Sys C) (tid : Nat) : Except PyErr (Sys C) :=
  match s.pc tid, s.prog tid with
  | .idle, .getCache :: rest =>
    .ok { stack := (getSharingCache s.stack tid).2, pc := s.pc, prog := fun t => if t = tid then rest else s.prog t }
  | _, _ => stepThread s tid

/-- A schedule of such steps. -/
def runCaught (s : Sys C) : List Nat → Except PyErr (Sys C)
  | [] => .ok s
  | tid :: sched => do
    let s' ← stepCaught s tid
    runCaught s' sched

/-- All threads before their first command. -/
def start (progs : Nat → List (Cmd C)) : Sys C := { stack := [], pc := fun _ => .idle, prog := progs }

end OE.Sharing

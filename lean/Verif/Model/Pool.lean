import Verif.Model.Spawn
import Mathlib.Tactic.Common
import Mathlib.Data.Int.Notation
import Mathlib.Logic.Function.Basic
/-!
# `threads/threads.c` — the thread pool behind `spawn_loop`

A small-step model: any number of application threads ("masters") and the workers the library creates, all interleaved in any order at the
granularity of one semaphore/mutex operation or one access to shared memory.  `proc` is arbitrary code that may itself call `spawn_loop`.

Simplifications: semaphores and the mutex are atomic counters/flags with the usual meaning (the POSIX and Win32 implementations of
threads.c:31-249 are not modelled), memory is sequentially consistent, `proc` is represented by the sequence of `spawn_loop` calls it makes
(a function of its block), `malloc` and thread creation succeed, and `spawnloop_callback` is not set.
-/

namespace FFTW.Pool
open FFTW.Spawn

/-- What a piece of code does, as far as the pool can see: a sequence of `spawn_loop(loopmax, nthr, proc, data)` calls (`body d` is what
`proc` does when handed block `d`), and — in application code only — `fftw_cleanup_threads` followed by a new `fftw_init_threads`. -/
inductive Prog
  | done
  | loop (loopmax nthr : ℤ) (body : SpawnData → Prog) (rest : Prog)
  | cleanup (rest : Prog)

/-- The stack-allocated `struct work r[nthr]` of one `spawn_loop` call (threads.c:276-280, 418-419): the `d` and `proc` members. -/
structure Job where
  blocks : List SpawnData
  body : SpawnData → Prog

/-- What the `w` member of a worker (threads.c:258) points to: element `i` of the array of call `J`, or the `w` of `kill_workforce` whose
`proc` is 0 (threads.c:353-355). -/
inductive Slot
  | work (J i : ℕ)
  | kill
  deriving DecidableEq

/-- threads: an application thread, or the thread serving the worker object at an address -/
inductive Tid
  | master (m : ℕ)
  | wk (w : ℕ)
  deriving DecidableEq

/-- Activation records: the statement a function is about to execute, with its local variables. -/
inductive Frame
  /-- application code -/
  | app (p : Prog)
  /-- `worker`, threads.c:301: `os_sem_down(&ego->ready)` -/
  | wait
  /-- threads.c:303-306: `w = ego->w; if (!w->proc) break;` and the call -/
  | fetch
  /-- threads.c:312: `os_sem_up(&ego->done)` -/
  | signal
  /-- threads.c:316: `os_sem_up(&termination_semaphore)`, then the thread ends -/
  | exit
  /-- inside `proc(d)` for block `i` of call `J`; `p` is what remains to be done -/
  | run (J i : ℕ) (p : Prog)
  /-- `spawn_loop`, threads.c:436-442: head of the first loop; for the last block run it here, otherwise `os_mutex_lock` of `dequeue` -/
  | dist (J : ℕ) (r : Job) (i : ℕ)
  /-- `dequeue`, threads.c:336: `q = worker_queue` -/
  | deqRead (J : ℕ) (r : Job) (i : ℕ)
  /-- threads.c:337-338: `if (q) worker_queue = q->cdr` -/
  | deqPop (J : ℕ) (r : Job) (i : ℕ) (q : Option ℕ)
  /-- threads.c:339: `os_mutex_unlock` -/
  | deqUnlock (J : ℕ) (r : Job) (i : ℕ) (q : Option ℕ)
  /-- threads.c:341-345: `make_worker`, `os_create_thread` -/
  | create (J : ℕ) (r : Job) (i : ℕ)
  /-- threads.c:453-456: `w->q = q; w->q->w = w` -/
  | assign (J : ℕ) (r : Job) (i : ℕ) (w : ℕ)
  /-- threads.c:457: `os_sem_up(&w->q->ready)` -/
  | upReady (J : ℕ) (r : Job) (i : ℕ)
  /-- threads.c:461-463: `os_sem_down(&w->q->done)`, or the return after the last iteration -/
  | coll (J : ℕ) (r : Job) (i : ℕ)
  /-- `enqueue`, threads.c:325: `os_mutex_lock` -/
  | enqLock (J : ℕ) (r : Job) (i : ℕ) (w : ℕ)
  /-- threads.c:326: `q->cdr = worker_queue` -/
  | enqLink (J : ℕ) (r : Job) (i : ℕ) (w : ℕ)
  /-- threads.c:327: `worker_queue = q` -/
  | enqSet (J : ℕ) (r : Job) (i : ℕ) (w : ℕ)
  /-- threads.c:328: `os_mutex_unlock` -/
  | enqUnlock (J : ℕ) (r : Job) (i : ℕ)
  /-- `kill_workforce`, threads.c:365-368: `while (worker_queue) { q = worker_queue; worker_queue = q->cdr; q->w = &w;` or the final unlock -/
  | killLoop
  /-- threads.c:369: `os_sem_up(&q->ready)` -/
  | killUp (w : ℕ)
  /-- threads.c:370: `os_sem_down(&termination_semaphore)` -/
  | killDown (w : ℕ)
  /-- threads.c:371: `unmake_worker(q)` -/
  | killFree (w : ℕ)

/-- observable history -/
inductive Event
  /-- call number `J` of `spawn_loop` -/
  | enter (J : ℕ) (loopmax nthr : ℤ)
  /-- `proc` starts on block `i` = `d` of call `J` -/
  | start (J i : ℕ) (d : SpawnData)
  /-- `proc` returns -/
  | finish (J i : ℕ)
  /-- `spawn_loop` returns -/
  | ret (J : ℕ)
  deriving DecidableEq

/-- The shared state, threads.c:253-285, together with the stacks of all threads and the history (latest event first). -/
structure Sys where
  nm : ℕ                          -- number of application threads
  stack : Tid → List Frame        -- innermost call first
  ready : ℕ → ℕ                   -- worker.ready
  done : ℕ → ℕ                    -- worker.done
  slot : ℕ → Option Slot          -- worker.w (`none`: uninitialised)
  cdr : ℕ → Option ℕ              -- worker.cdr
  alive : ℕ → Bool                -- is there a worker object at this address?
  head : Option ℕ                 -- worker_queue
  lock : Option Tid               -- queue_lock: its holder
  term : ℕ                        -- termination_semaphore
  cleaning : Bool                 -- some thread is inside cleanup
  jobs : ℕ → Option Job           -- the arrays `r` that exist
  wq : ℕ → ℕ → Option ℕ           -- r[i].q
  nextJob : ℕ
  log : List Event

/-- the result of letting a thread take a step -/
inductive Res
  | blocked          -- the thread waits (or has nothing to do)
  | fault            -- access to a dead object, unlock of a mutex one does not hold, …
  | next (s : Sys)

/-- replace the stack of thread `t` -/
def Sys.put (s : Sys) (t : Tid) (st : List Frame) : Sys := { s with stack := Function.update s.stack t st }

/-- No application thread is inside a library call: `fftw_cleanup_threads` may only be called then. -/
def Sys.quiet (s : Sys) : Bool := (List.range s.nm).all fun m => match s.stack (.master m) with
  | [.app _] => true
  | _ => false

/-- entry of `spawn_loop`, threads.c:398-419: nothing to do if there are no blocks, otherwise `r` is allocated; `st` is the caller's stack -/
def spawn (t : Tid) (s : Sys) (st : List Frame) (loopmax nthr : ℤ) (body : SpawnData → Prog) : Res :=
  match spawnLoop loopmax nthr with
  | none => .fault
  | some [] => .next { s.put t st with nextJob := s.nextJob + 1, log := .ret s.nextJob :: .enter s.nextJob loopmax nthr :: s.log }
  | some ds => .next { s.put t (.dist s.nextJob ⟨ds, body⟩ 0 :: st) with
      jobs := Function.update s.jobs s.nextJob (some ⟨ds, body⟩)
      nextJob := s.nextJob + 1
      log := .enter s.nextJob loopmax nthr :: s.log }

/-- one step of the code of `spawn_loop`, `dequeue`, `enqueue` (threads.c:323-348, 422-467); `st` is the stack below; `fresh` is the address
`malloc` returns if it is called -/
def stepJob (t : Tid) (fresh : ℕ) (s : Sys) (st : List Frame) : Frame → Res
  | .dist J r i =>
    if i + 1 = r.blocks.length then
      match r.blocks[i]? with
      | none => .fault
      | some d => .next { s.put t (.run J i (r.body d) :: .coll J r 0 :: st) with log := .start J i d :: s.log }
    else if s.lock.isSome then .blocked
    else .next { s.put t (.deqRead J r i :: st) with lock := some t }
  | .deqRead J r i => .next (s.put t (.deqPop J r i s.head :: st))
  | .deqPop J r i none => .next (s.put t (.deqUnlock J r i none :: st))
  | .deqPop J r i (some w) =>
    if s.alive w then .next { s.put t (.deqUnlock J r i (some w) :: st) with head := s.cdr w } else .fault
  | .deqUnlock J r i q =>
    if s.lock = some t then
      match q with
      | some w => .next { s.put t (.assign J r i w :: st) with lock := none }
      | none => .next { s.put t (.create J r i :: st) with lock := none }
    else .fault
  | .create J r i =>
    if s.alive fresh then .blocked                -- malloc does not return an address in use
    else .next { s with
      stack := Function.update (Function.update s.stack (.wk fresh) [.wait]) t (.assign J r i fresh :: st)
      alive := Function.update s.alive fresh true
      ready := Function.update s.ready fresh 0
      done := Function.update s.done fresh 0
      slot := Function.update s.slot fresh none }
  | .assign J r i w =>
    if s.alive w then .next { s.put t (.upReady J r i :: st) with
      wq := Function.update s.wq J (Function.update (s.wq J) i (some w))
      slot := Function.update s.slot w (some (.work J i)) }
    else .fault
  | .upReady J r i =>
    match s.wq J i with
    | none => .fault
    | some w => if s.alive w then .next { s.put t (.dist J r (i + 1) :: st) with
        ready := Function.update s.ready w (s.ready w + 1) } else .fault
  | .coll J r i =>
    if i + 1 = r.blocks.length then .next { s.put t st with jobs := Function.update s.jobs J none, log := .ret J :: s.log }
    else match s.wq J i with
      | none => .fault
      | some w =>
        if s.alive w then
          if s.done w = 0 then .blocked
          else .next { s.put t (.enqLock J r i w :: st) with done := Function.update s.done w (s.done w - 1) }
        else .fault
  | .enqLock J r i w => if s.lock.isSome then .blocked else .next { s.put t (.enqLink J r i w :: st) with lock := some t }
  | .enqLink J r i w =>
    if s.alive w then .next { s.put t (.enqSet J r i w :: st) with cdr := Function.update s.cdr w s.head } else .fault
  | .enqSet J r i w => .next { s.put t (.enqUnlock J r i :: st) with head := some w }
  | .enqUnlock J r i => if s.lock = some t then .next { s.put t (.coll J r (i + 1) :: st) with lock := none } else .fault
  | _ => .fault

/-- one step of the `worker` function, threads.c:294-321, for the worker object `w` -/
def stepWorker (w : ℕ) (s : Sys) (st : List Frame) : Frame → Res
  | .wait =>
    if s.alive w then
      if s.ready w = 0 then .blocked
      else .next { s.put (.wk w) (.fetch :: st) with ready := Function.update s.ready w (s.ready w - 1) }
    else .fault
  | .fetch =>
    if s.alive w then
      match s.slot w with
      | none => .fault
      | some .kill => if s.cleaning then .next (s.put (.wk w) (.exit :: st)) else .fault
      | some (.work J i) =>
        match s.jobs J with
        | none => .fault                          -- `r` no longer exists
        | some r =>
          match r.blocks[i]? with
          | none => .fault
          | some d => .next { s.put (.wk w) (.run J i (r.body d) :: .signal :: st) with log := .start J i d :: s.log }
    else .fault
  | .signal =>
    if s.alive w then .next { s.put (.wk w) (.wait :: st) with done := Function.update s.done w (s.done w + 1) } else .fault
  | .exit => .next { s.put (.wk w) st with term := s.term + 1 }
  | _ => .fault

/-- one step of `kill_workforce`, threads.c:351-374 -/
def stepKill (t : Tid) (s : Sys) (st : List Frame) : Frame → Res
  | .killLoop =>
    match s.head with
    | none => if s.lock = some t then .next { s.put t st with lock := none, cleaning := false } else .fault
    | some w =>
      if s.alive w then .next { s.put t (.killUp w :: st) with head := s.cdr w, slot := Function.update s.slot w (some .kill) }
      else .fault
  | .killUp w =>
    if s.alive w then .next { s.put t (.killDown w :: st) with ready := Function.update s.ready w (s.ready w + 1) } else .fault
  | .killDown w => if s.term = 0 then .blocked else .next { s.put t (.killFree w :: st) with term := s.term - 1 }
  | .killFree w =>
    if s.alive w then .next { s.put t (.killLoop :: st) with alive := Function.update s.alive w false } else .fault
  | _ => .fault

/-- one step of code outside this file (application code, `proc`) -/
def stepCode (t : Tid) (s : Sys) (st : List Frame) : Frame → Res
  | .app .done => .blocked
  | .app (.loop lm n body rest) =>
    -- the application calls nothing while it is cleaning up
    if s.cleaning then .blocked else spawn t s (.app rest :: st) lm n body
  | .app (.cleanup rest) =>
    if s.lock.isSome || !s.quiet then .blocked
    else .next { s.put t (.killLoop :: .app rest :: st) with lock := some t, cleaning := true }
  | .run J i .done => .next { s.put t st with log := .finish J i :: s.log }
  | .run J i (.loop lm n body rest) => spawn t s (.run J i rest :: st) lm n body
  | _ => .fault

/-- one step of thread `t` -/
def step (t : Tid) (fresh : ℕ) (s : Sys) : Res :=
  match s.stack t with
  | [] => .blocked
  | f :: st =>
    match f with
    | .app _ | .run _ _ _ => stepCode t s st f
    | .wait | .fetch | .signal | .exit =>
      match t with
      | .wk w => stepWorker w s st f
      | .master _ => .fault
    | .killLoop | .killUp _ | .killDown _ | .killFree _ => stepKill t s st f
    | _ => stepJob t fresh s st f

/-- after `fftw_init_threads` (threads.c:378-390), with one application thread per program -/
def init (progs : List Prog) : Sys where
  nm := progs.length
  stack
    | .master m => match progs[m]? with
      | some p => [.app p]
      | none => []
    | .wk _ => []
  ready _ := 0
  done _ := 0
  slot _ := none
  cdr _ := none
  alive _ := false
  head := none
  lock := none
  term := 0
  cleaning := false
  jobs _ := none
  wq _ _ := none
  nextJob := 0
  log := []

/-- executions of length `n`: any thread may move at any time -/
inductive Exec (progs : List Prog) : ℕ → Sys → Prop
  | start : Exec progs 0 (init progs)
  | step {n : ℕ} {s s' : Sys} (t : Tid) (fresh : ℕ) : Exec progs n s → step t fresh s = .next s' → Exec progs (n + 1) s'

end FFTW.Pool

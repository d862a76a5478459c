/-!
# Goroutines, shared memory and `sync.RWMutex`

A method body is a program of micro-steps over a shared state `σ`: lock operations and single
accesses, with thread-local computation in between. Any number of goroutines run such programs; every
interleaving of their micro-steps is an execution. `μ` names the mutexes, `κ` the memory
locations (for talking about data races), `ρ` is the type of the result.

`sync.RWMutex` follows Go's implementation: `Lock` first excludes other writers and announces itself,
from then on new readers block, and it acquires the mutex once the readers that are in have left.
`RLock` can block even while the mutex is only held for reading. The mutex does not know who holds it.
-/

namespace Netscrape.Conc

/-- A program of micro-steps. -/
inductive Prog (μ κ σ ρ : Type) where
  /-- Return. -/
  | ret (r : ρ)
  /-- `m.Lock()`: exclude other writers and announce. -/
  | lock (m : μ) (k : Prog μ κ σ ρ)
  /-- The second half of `m.Lock()`: wait for readers. Only the semantics produces it. -/
  | acquire (m : μ) (k : Prog μ κ σ ρ)
  /-- `m.Unlock()`. -/
  | unlock (m : μ) (k : Prog μ κ σ ρ)
  /-- `m.RLock()`. -/
  | rlock (m : μ) (k : Prog μ κ σ ρ)
  /-- `m.RUnlock()`. -/
  | runlock (m : μ) (k : Prog μ κ σ ρ)
  /-- Read location `l` of the shared state. -/
  | read (l : κ) (k : σ → Prog μ κ σ ρ)
  /-- Change location `l` of the shared state; what follows may depend on what was there before. -/
  | write (l : κ) (f : σ → σ) (k : σ → Prog μ κ σ ρ)

namespace Prog
variable {μ κ σ ρ α β : Type}

/-- Run one program, then another that depends on its result. -/
def bind : Prog μ κ σ α → (α → Prog μ κ σ β) → Prog μ κ σ β
  | ret a, f => f a
  | lock m k, f => lock m (k.bind f)
  | acquire m k, f => acquire m (k.bind f)
  | unlock m k, f => unlock m (k.bind f)
  | rlock m k, f => rlock m (k.bind f)
  | runlock m k, f => runlock m (k.bind f)
  | read l k, f => read l (fun s => (k s).bind f)
  | write l g k, f => write l g (fun s => (k s).bind f)

/-- `m.Lock(); defer m.Unlock(); body`. -/
def excl (m : μ) (body : Prog μ κ σ ρ) : Prog μ κ σ ρ :=
  lock m (body.bind fun r => unlock m (ret r))

/-- `m.RLock(); defer m.RUnlock(); body`. -/
def shared (m : μ) (body : Prog μ κ σ ρ) : Prog μ κ σ ρ :=
  rlock m (body.bind fun r => runlock m (ret r))

/-- What the program computes when nothing else runs and no lock blocks it. -/
def eval : Prog μ κ σ ρ → σ → σ × ρ
  | ret r, s => (s, r)
  | lock _ k, s => k.eval s
  | acquire _ k, s => k.eval s
  | unlock _ k, s => k.eval s
  | rlock _ k, s => k.eval s
  | runlock _ k, s => k.eval s
  | read _ k, s => (k s).eval s
  | write _ f k, s => (k s).eval (f s)

end Prog

/-- The writers' side of a mutex. -/
inductive Wr where
  | free
  | announced
  | held
deriving DecidableEq, Repr

/-- State of one `sync.RWMutex`: number of readers in, and whether a writer is waiting for them or
is in. -/
structure Mu where
  readers : Nat
  wr : Wr
deriving DecidableEq, Repr

/-- The unlocked mutex. -/
def Mu.init : Mu := ⟨0, .free⟩

/-- Function update. -/
def upd {α β : Type} [DecidableEq α] (f : α → β) (a : α) (b : β) : α → β :=
  fun x => if x = a then b else f x

/-- A call in progress. `mine` is bookkeeping that no step depends on: what this call has added to
each mutex. -/
structure Call (μ κ σ Op Out : Type) where
  id : Nat
  op : Op
  prog : Prog μ κ σ Out
  mine : μ → Mu

/-- What an outside observer sees. Calls are numbered; `t` is the goroutine. -/
inductive Ev (Op Out : Type) where
  | inv (c t : Nat) (op : Op)
  | res (c t : Nat) (out : Out)
deriving DecidableEq

/-- A configuration: shared state, mutexes, the call each goroutine is in, the number of calls so far,
the history of invocations and results (oldest first). -/
structure Cfg (μ κ σ Op Out : Type) where
  data : σ
  mus : μ → Mu
  calls : Nat → Option (Call μ κ σ Op Out)
  next : Nat
  hist : List (Ev Op Out)

variable {μ κ σ Op Out : Type} [DecidableEq μ]

/-- Nothing has been called yet. -/
def Cfg.init (s : σ) : Cfg μ κ σ Op Out := ⟨s, fun _ => .init, fun _ => none, 0, []⟩

/-- A scheduler decision: goroutine `t` (which is idle) calls a method, `t`'s call makes one micro-step,
or `t`'s call returns to its caller. -/
inductive Act (Op : Type) where
  | call (t : Nat) (op : Op)
  | tau (t : Nat)
  | ret (t : Nat)
deriving DecidableEq

/-- One micro-step of a call; `none` if it blocks (or is about to return, or misuses a mutex, which in
Go aborts the process). -/
def micro (c : Cfg μ κ σ Op Out) (k : Call μ κ σ Op Out) :
    Option (Call μ κ σ Op Out × (μ → Mu) × σ) :=
  match k.prog with
  | .ret _ => none
  | .lock m p =>
    if (c.mus m).wr = .free then
      some ({ k with prog := .acquire m p, mine := upd k.mine m { k.mine m with wr := .announced } },
        upd c.mus m { c.mus m with wr := .announced }, c.data)
    else none
  | .acquire m p =>
    if (c.mus m).readers = 0 then
      some ({ k with prog := p, mine := upd k.mine m { k.mine m with wr := .held } },
        upd c.mus m { c.mus m with wr := .held }, c.data)
    else none
  | .unlock m p =>
    if (c.mus m).wr = .held then
      some ({ k with prog := p, mine := upd k.mine m { k.mine m with wr := .free } },
        upd c.mus m { c.mus m with wr := .free }, c.data)
    else none
  | .rlock m p =>
    if (c.mus m).wr = .free then
      some ({ k with prog := p, mine := upd k.mine m { k.mine m with readers := (k.mine m).readers + 1 } },
        upd c.mus m { c.mus m with readers := (c.mus m).readers + 1 }, c.data)
    else none
  | .runlock m p =>
    if (c.mus m).readers ≠ 0 then
      some ({ k with prog := p, mine := upd k.mine m { k.mine m with readers := (k.mine m).readers - 1 } },
        upd c.mus m { c.mus m with readers := (c.mus m).readers - 1 }, c.data)
    else none
  | .read _ p => some ({ k with prog := p c.data }, c.mus, c.data)
  | .write _ f p => some ({ k with prog := p c.data }, c.mus, f c.data)

/-- One scheduler decision; `none` if it is not possible. `prog` gives the body of each method. -/
def step (prog : Op → Prog μ κ σ Out) (c : Cfg μ κ σ Op Out) : Act Op → Option (Cfg μ κ σ Op Out)
  | .call t op =>
    match c.calls t with
    | some _ => none
    | none =>
      some { c with calls := upd c.calls t (some ⟨c.next, op, prog op, fun _ => .init⟩),
                    next := c.next + 1, hist := c.hist ++ [.inv c.next t op] }
  | .tau t =>
    match c.calls t with
    | none => none
    | some k =>
      match micro c k with
      | none => none
      | some (k', mus, d) => some { c with data := d, mus := mus, calls := upd c.calls t (some k') }
  | .ret t =>
    match c.calls t with
    | none => none
    | some k =>
      match k.prog with
      | .ret r => some { c with calls := upd c.calls t none, hist := c.hist ++ [.res k.id t r] }
      | _ => none

/-- A schedule. -/
def exec (prog : Op → Prog μ κ σ Out) (c : Cfg μ κ σ Op Out) : List (Act Op) → Option (Cfg μ κ σ Op Out)
  | [] => some c
  | a :: as =>
    match step prog c a with
    | none => none
    | some c' => exec prog c' as

/-- Configurations some schedule reaches from `s`, calling only methods that satisfy `allowed`. -/
inductive Reach (prog : Op → Prog μ κ σ Out) (allowed : Op → Prop) (s : σ) : Cfg μ κ σ Op Out → Prop
  | init : Reach prog allowed s (.init s)
  | step (c c' : Cfg μ κ σ Op Out) (a : Act Op) : Reach prog allowed s c →
      (∀ t op, a = .call t op → allowed op) → Conc.step prog c a = some c' → Reach prog allowed s c'

end Netscrape.Conc

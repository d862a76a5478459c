import Verif.Model.BrokerLock
import Verif.Model.Digest

/-!
# `Digest` on a subscription of the in-memory broker, statement by statement

As `Model/Digest.lean`, but the broker and its users take turns statement by statement, with the mutex explicit
(`Model/BrokerLock.lean`).
-/

namespace Netscrape.DigestLock
open Netscrape.BrokerLock (St Act step Reach Any)
open Netscrape.Digest (Pos retOf)

/-- The broker, the position of `handle` (pkg/broker/digester/simple/digester.go:29-35), and the calls of `Receive` made
so far, oldest first. -/
structure DSt where
  s : St
  pos : Pos
  recvs : List Nat

/-- What happens next: something in the broker or by its other users, or the loop calls `Receive`, or it goes
on after `Receive` returned. -/
inductive DAct where
  | sys (a : Act)
  | receive
  | resume

/-- One step of the digester with context `ctx` on subscription `x`
(pkg/broker/digester/simple/digester.go:30-34). -/
def dstep (ctx x : Nat) (d : DSt) : DAct → Option DSt
  | .sys a =>
    match step d.s a with
    | none => none
    | some s' => some { d with s := s' }
  | .receive =>
    match d.pos with
    | .start =>
      match step d.s (.call (.receive ctx x)) with
      | none => none
      | some s' => some ⟨s', .waiting d.s.next, d.recvs ++ [d.s.next]⟩
    | _ => none
  | .resume =>
    match d.pos with
    | .waiting r =>
      match retOf r d.s.log with
      | none => none
      | some .nil => some { d with pos := .start }
      | some v => some { d with pos := .returned v }
    | _ => none

/-- Is this a step of the digester's own goroutine? -/
def own (d : DSt) : DAct → Prop
  | .receive => True
  | .resume => True
  | .sys (.step i _) => d.pos = .waiting i
  | .sys (.lock i) => d.pos = .waiting i
  | .sys (.stmt i _) => d.pos = .waiting i
  | .sys (.ret i) => d.pos = .waiting i
  | _ => False

/-- The states after `Digest` was called on a subscription of a broker of the given capacity. -/
inductive DReach (cap : Int) (ctx x : Nat) : DSt → Prop
  | init (s : St) : Reach cap Any s → (s.b.sub x).isSome = true → DReach cap ctx x ⟨s, .start, []⟩
  | step (d d' : DSt) (a : DAct) : DReach cap ctx x d → dstep ctx x d a = some d' → DReach cap ctx x d'

/-- A sequence of steps. -/
def dexec (ctx x : Nat) (d : DSt) : List DAct → Option DSt
  | [] => some d
  | a :: as =>
    match dstep ctx x d a with
    | none => none
    | some d' => dexec ctx x d' as

end Netscrape.DigestLock

import Verif.Model.Pipeline

/-!
# `handlers.DumpData` down to the system calls

pkg/broker/handlers/handlers.go:13-18: `io.Copy(os.Stdout, bytes.NewReader(m.Data))`. `io.Copy` lets the
`bytes.Reader` write itself (`WriteTo`), which calls `Write` of `os.Stdout` once; that calls write(2) until
everything is written. All of these are Go's standard library (1.14), modelled from its source as recalled.
Interrupted calls (EINTR, EAGAIN), which write nothing and are repeated, are not modelled; neither is EPIPE,
on which the process is killed by SIGPIPE.
-/

namespace Netscrape.Stdout
open Netscrape.Pipeline (Err)
open Netscrape.Json (Bytes)

/-- What one call of write(2) does: write that many bytes, or fail. -/
inductive Sys where
  | wrote (n : Nat)
  | fail (e : Nat)
deriving DecidableEq, Repr

/-- Errors of `Write`: from write(2), `io.ErrUnexpectedEOF` and `io.ErrShortWrite`. -/
inductive WErr where
  | sys (e : Nat)
  | unexpectedEOF
  | shortWrite
deriving DecidableEq, Repr

/-- The most bytes given to one write(2) (`maxRW` in internal/poll/fd_unix.go). -/
def maxRW : Nat := 1073741824

/-- The loop in `poll.FD.Write`: the calls of write(2) still to come do what the list says. `nn` bytes were
written so far. The result is the number of bytes written and the error, and the buffers given to write(2)
with the number of bytes taken from each. `none` if the list is too short. -/
def fdWrite (p : Bytes) (nn : Nat) : List Sys → Option ((Nat × Option WErr) × List (Bytes × Nat))
  | [] => none
  | .fail e :: _ => some ((nn, some (.sys e)), [((p.drop nn).take maxRW, 0)])
  | .wrote n :: r =>
    let buf := (p.drop nn).take maxRW
    if nn + n = p.length then some ((nn + n, none), [(buf, n)])
    else if n = 0 then some ((nn, some .unexpectedEOF), [(buf, 0)])
    else match fdWrite p (nn + n) r with
      | none => none
      | some (x, l) => some (x, (buf, n) :: l)

/-- `File.Write` (os/file.go). -/
def fileWrite (p : Bytes) (sys : List Sys) : Option ((Nat × Option WErr) × List (Bytes × Nat)) :=
  match fdWrite p 0 sys with
  | none => none
  | some ((n, some e), l) => some ((n, some e), l)
  | some ((n, none), l) => some ((n, if n ≠ p.length then some .shortWrite else none), l)

/-- `Reader.WriteTo` (bytes/reader.go) on a new reader: nothing is written if there is nothing to write. -/
def writeTo (p : Bytes) (sys : List Sys) : Option (Res WErr Unit × List (Bytes × Nat)) :=
  if p = [] then some (.ok (), [])
  else match fileWrite p sys with
    | none => none
    | some ((n, e), l) =>
      if n > p.length then some (.panic, l)
      else match e with
        | some e => some (.err e, l)
        | none => if n ≠ p.length then some (.err .shortWrite, l) else some (.ok (), l)

/-- `DumpData` (pkg/broker/handlers/handlers.go:13-18). -/
def dumpData (m : Broker.Msg) (sys : List Sys) : Option (Res WErr Unit × List (Bytes × Nat)) :=
  writeTo m.data.toList sys

end Netscrape.Stdout

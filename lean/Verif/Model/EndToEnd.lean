import Verif.Model.Pipeline

/-!
# The JSON marshaler as marshaler of `Ingest`
-/

namespace Netscrape.Pipeline
open Netscrape.Json (Bytes)

/-- What `Marshal` of pkg/space/marshal/json sees of the value given to `Ingest`: pointers for the types whose
method set needs them; the types of pkg/space/marshal/types.go and the rest have none of the methods. -/
def dynOf : Data → Marshal.Dyn
  | .entity e => .entityPtr e
  | .resource r => .ofResource r
  | .object x => .objectPtr x
  | .link l => .ofLink l
  | _ => {}

/-- `Marshal` of pkg/space/marshal/json (json.go:19-48) as a marshaler for `Ingest`, called when the memory is
`h`. Error 0 is `marshal.ErrUnsuportedType`. -/
def jsonMarshaler (h : Heap) (o : Marshal.Orders) (d : Data) : Res Err Bytes :=
  match Marshal.marshal h o (dynOf d) with
  | .ok b => .ok b
  | .err .unsupportedType => .err (.env 0)
  | .err .json => .err .json
  | .panic => .panic

end Netscrape.Pipeline

import Verif.Model.Attrs

/-!
# Model of pkg/space/entity, pkg/space/link and pkg/space/marshal (conversions)

Space values are handled through pointers in Go; apart from `SetDOTID` nothing changes their fields,
so they are values here. The resource of an object and the ends of a link are non-nil when present
(typed nil pointers are not modelled).
-/

namespace Netscrape.Space

/-- `entity.Entity` (pkg/space/entity/entity.go:16-21). -/
structure Entity where
  uid : Uid
  typ : String
  dotid : String
  attrs : Ref
deriving DecidableEq, Repr

/-- `entity.Resource` (pkg/space/entity/resource.go:14-24). -/
structure Resource where
  uid : Uid
  typ : String
  name : String
  group : String
  version : String
  kind : String
  namespaced : Bool
  dotid : String
  attrs : Ref
deriving DecidableEq, Repr

/-- `entity.Object` (pkg/space/entity/object.go:15-23). -/
structure Object where
  uid : Uid
  typ : String
  name : String
  ns : String
  res : Option Resource
  dotid : String
  attrs : Ref
deriving DecidableEq, Repr

/-- `link.Link` (pkg/space/link/link.go:12-17). -/
structure Link where
  uid : Uid
  from' : Uid
  to : Uid
  attrs : Ref
deriving DecidableEq, Repr

/-- `entity.Options` (pkg/space/entity/options.go:9-16); for links (pkg/space/link/options.go:9-16)
`dotid` is unused and `Merge` is never read. -/
structure Opts where
  uid : Option Uid := none
  attrs : Option Ref := none
  dotid : String := ""
deriving DecidableEq, Repr

/-- One option (pkg/space/entity/options.go:22-40, pkg/space/link/options.go:22-40). -/
inductive Opt where
  | withUID (u : Option Uid)
  | withAttrs (a : Option Ref)
  | withDOTID (s : String)
  /-- `link.WithMerge`. -/
  | withMerge (b : Bool)
deriving DecidableEq, Repr

/-- Calling one option on the options struct. -/
def Opt.apply (o : Opts) : Opt → Opts
  | .withUID u => { o with uid := u }
  | .withAttrs a => { o with attrs := a }
  | .withDOTID s => { o with dotid := s }
  | .withMerge _ => o

/-- `for _, apply := range opts { apply(&eopts) }` (pkg/space/entity/entity.go:25-28). -/
def applyAll (opts : List Opt) : Opts := opts.foldl Opt.apply {}

/-- `a := eopts.Attrs; if a == nil { a = memattrs.New() }` (pkg/space/entity/entity.go:35-38,
resource.go:38-41, object.go:37-40, pkg/space/link/link.go:31-34). -/
def attrsOrNew (h : Heap) (a : Option Ref) : Ref × Heap :=
  match a with
  | some r => (r, h)
  | none => Attrs.new h

/-- `strings.Join(parts, "/")`. -/
def join : List String → String
  | [] => ""
  | [x] => x
  | x :: xs => x ++ "/" ++ join xs

/-- `entity.New` (pkg/space/entity/entity.go:24-51). `fresh` is the result of `memuid.New()`. -/
def newEntity (h : Heap) (fresh : Uid) (typ : String) (opts : List Opt) : Entity × Heap :=
  let o := applyAll opts
  let uid := o.uid.getD fresh
  let (a, h) := attrsOrNew h o.attrs
  let dotid := if o.dotid = "" then uid.str else o.dotid
  (⟨uid, typ, dotid, a⟩, h)

/-- `entity.NewResource` (pkg/space/entity/resource.go:27-62). -/
def newResource (h : Heap) (fresh : Uid) (typ name group version kind : String) (namespaced : Bool)
    (opts : List Opt) : Resource × Heap :=
  let o := applyAll opts
  let uid := o.uid.getD fresh
  let (a, h) := attrsOrNew h o.attrs
  let dotid := if o.dotid = "" then join [group, version, kind] else o.dotid
  (⟨uid, typ, name, group, version, kind, namespaced, dotid, a⟩, h)

/-- `entity.NewObject` (pkg/space/entity/object.go:26-64). -/
def newObject (h : Heap) (fresh : Uid) (typ name ns : String) (res : Option Resource)
    (opts : List Opt) : Object × Heap :=
  let o := applyAll opts
  let uid := o.uid.getD fresh
  let (a, h) := attrsOrNew h o.attrs
  let dotid := if o.dotid = "" then
      match res with
      | some r => join [r.group, r.version, r.kind, ns, name]
      | none => uid.str
    else o.dotid
  (⟨uid, typ, name, ns, res, dotid, a⟩, h)

/-- `link.New` (pkg/space/link/link.go:20-42). -/
def newLink (h : Heap) (fresh : Uid) (from' to : Uid) (opts : List Opt) : Link × Heap :=
  let o := applyAll opts
  let uid := o.uid.getD fresh
  let (a, h) := attrsOrNew h o.attrs
  (⟨uid, from', to, a⟩, h)

/-- `SetDOTID` (pkg/space/entity/entity.go:74-76, resource.go:110-112, object.go:102-104). -/
def Entity.setDOTID (e : Entity) (s : String) : Entity := { e with dotid := s }
/-- See `Entity.setDOTID`. -/
def Resource.setDOTID (e : Resource) (s : String) : Resource := { e with dotid := s }
/-- See `Entity.setDOTID`. -/
def Object.setDOTID (e : Object) (s : String) : Object := { e with dotid := s }

end Netscrape.Space

namespace Netscrape.Transport

/-- `marshal.Entity` (pkg/space/marshal/types.go:4-8). A nil attribute map reads like an empty one and
is represented by it. -/
structure Entity where
  uid : String
  typ : String
  attrs : AttrMap

/-- `marshal.Resource` (pkg/space/marshal/types.go:11-18). -/
structure Resource extends Entity where
  name : String
  group : String
  version : String
  kind : String
  namespaced : Bool

/-- `marshal.Object` (pkg/space/marshal/types.go:21-26). -/
structure Object extends Entity where
  name : String
  ns : String
  res : Option Resource

/-- `marshal.Link` (pkg/space/marshal/types.go:29-34). -/
structure Link where
  uid : String
  from' : String
  to : String
  attrs : AttrMap

/-- The choices the runtime makes during one conversion: addresses of the UID objects
`memuid.NewFromString` allocates, map iteration orders; the second of each pair is for the resource
inside an object, respectively for the ends of a link. -/
structure Choice where
  addr : Nat
  addr2 : Nat
  addr3 : Nat
  order : Order (String × String)
  order2 : Order (String × String)

def Choice.id : Choice := ⟨0, 0, 0, Order.id, Order.id⟩

/-- `EntityToSpace` (pkg/space/marshal/marshal.go:16-26). `entity.New` does not use its fallback UID
because one is given; the given one stands in for it. -/
def entityToSpace (h : Heap) (c : Choice) (e : Entity) : Space.Entity × Heap :=
  let uid : Uid := ⟨c.addr, e.uid⟩
  let (a, h) := Attrs.newFromMap h c.order e.attrs
  Space.newEntity h uid e.typ [.withUID (some uid), .withAttrs (some a)]

/-- `ResourceToSpace` (pkg/space/marshal/marshal.go:29-39). -/
def resourceToSpace (h : Heap) (c : Choice) (r : Resource) : Space.Resource × Heap :=
  let uid : Uid := ⟨c.addr, r.uid⟩
  let (a, h) := Attrs.newFromMap h c.order r.attrs
  Space.newResource h uid r.typ r.name r.group r.version r.kind r.namespaced
    [.withUID (some uid), .withAttrs (some a)]

/-- The resource part of `ObjectToSpace` (pkg/space/marshal/marshal.go:43-50). -/
def resToSpace (h : Heap) (c : Choice) (r : Option Resource) : Option Space.Resource × Heap :=
  match r with
  | none => (none, h)
  | some r =>
    let (r, h) := resourceToSpace h { c with addr := c.addr2, order := c.order2 } r
    (some r, h)

/-- `ObjectToSpace` (pkg/space/marshal/marshal.go:42-62). -/
def objectToSpace (h : Heap) (c : Choice) (o : Object) : Space.Object × Heap :=
  let (r, h) := resToSpace h c o.res
  let uid : Uid := ⟨c.addr, o.uid⟩
  let (a, h) := Attrs.newFromMap h c.order o.attrs
  Space.newObject h uid o.typ o.name o.ns r [.withUID (some uid), .withAttrs (some a)]

/-- `LinkToSpace` (pkg/space/marshal/marshal.go:65-78). -/
def linkToSpace (h : Heap) (c : Choice) (l : Link) : Space.Link × Heap :=
  let uid : Uid := ⟨c.addr, l.uid⟩
  let (a, h) := Attrs.newFromMap h c.order l.attrs
  Space.newLink h uid ⟨c.addr2, l.from'⟩ ⟨c.addr3, l.to⟩ [.withUID (some uid), .withAttrs (some a)]

/-- `EntityFromSpace` (pkg/space/marshal/marshal.go:81-92). -/
def entityFromSpace (h : Heap) (o : Order (String × String)) (e : Space.Entity) : Entity :=
  ⟨e.uid.str, e.typ, Attrs.toMap h o e.attrs⟩

/-- `ResourceFromSpace` (pkg/space/marshal/marshal.go:95-112). -/
def resourceFromSpace (h : Heap) (o : Order (String × String)) (r : Space.Resource) : Resource :=
  ⟨⟨r.uid.str, r.typ, Attrs.toMap h o r.attrs⟩, r.name, r.group, r.version, r.kind, r.namespaced⟩

/-- `ObjectFromSpace` (pkg/space/marshal/marshal.go:115-140). -/
def objectFromSpace (h : Heap) (o o2 : Order (String × String)) (e : Space.Object) : Object :=
  ⟨⟨e.uid.str, e.typ, Attrs.toMap h o e.attrs⟩, e.name, e.ns, e.res.map (resourceFromSpace h o2)⟩

/-- `LinkFromSpace` (pkg/space/marshal/marshal.go:143-155). -/
def linkFromSpace (h : Heap) (o : Order (String × String)) (l : Space.Link) : Link :=
  ⟨l.uid.str, l.from'.str, l.to.str, Attrs.toMap h o l.attrs⟩

end Netscrape.Transport

import Verif.Model.Scoped
import Verif.Model.Iters

/-!
# What is in memory, and for how long

The code keeps tables of shared keys, buffers and scopes under `Arc`s, and hands out references into them whose lifetimes are
partly made up (`unsafe { &*core::ptr::from_ref(..) }`, value/dict.rs:252, mutable/dict.rs:223; raw pointers in `Alloced` and
`Scope`). Here a program is a list of steps, each on variables. Every variable has a number, which is not used again. A variable
is gone after it was dropped or moved. `Arc` by its documented behaviour: a count, plus one by `clone`, minus one by dropping; at 0
what is inside is dropped and its memory given back.

What the compiler checks is in `step`: it is `none` for a step that the compiler would not accept, i.e. one that uses a variable that is
gone, or a reference after what it was borrowed from is gone or was changed. The lifetimes are those that the signatures state.

Simplified: one thread; panics end the program; only dicts of owned values are iterated over (values reached from `Scope::root`,
`clone_from_bytes`, `finish_value`), any number of them per owned value. In a mutable dict the values are not looked at, so that
mutable dicts inside others, and their `Arc`s, are left out.
-/

namespace Fleece.Life
open Fleece

/-- Something under an `Arc`, with its strong count. -/
structure Cell (α : Type) where
  val : α
  strong : Nat

/-- `Scope`, scope.rs:10-15, by what it holds: the table and the buffer are numbers of cells. -/
structure ScopeData where
  sk : Option Nat
  buf : Nat
  root : Option Val

/-- A cell. -/
inductive Loc where
  | table (t : Nat)
  | buf (b : Nat)
  | scope (s : Nat)
deriving DecidableEq

/-- Where the bytes of a `&str` are. -/
inductive Str where
  /-- in a buffer -/
  | buf (b : Nat) (s : List UInt8)
  /-- in the table of shared keys, as the name of a code -/
  | table (t code : Nat)
  /-- in the `String` of a key in a mutable dict -/
  | own (s : List UInt8)

/-- What a variable holds. `src` is the variable that is borrowed from, `edits` says how often that was changed before. -/
inductive Thing where
  /-- `Arc<SharedKeys>` -/
  | table (t : Nat)
  /-- `Arc<[u8]>` -/
  | data (b : Nat)
  /-- `Arc<Scope>` -/
  | scope (s : Nat)
  /-- `Alloced<T>`, alloced.rs:10-16 -/
  | owned (b : Nat) (v : Val)
  /-- `dict::SharedKeyIter` (`sk = some`) and `dict::Iter`, value/dict.rs:235-242 -/
  | iter (src : Nat) (sk : Option Nat) (it : Iter)
  /-- `MutableDict`, mutable/dict.rs:16-20 -/
  | dict (sk : Option Nat) (map : List (Key × Slot)) (edits : Nat)
  /-- `mutable::dict::Iter`, mutable/dict.rs:175-178 -/
  | mutIter (src edits : Nat) (sk : Option Nat) (rest : List (Key × Slot))
  /-- a key that an iterator has returned: `&'a str`, with the lifetime of the dict, value/dict.rs:245, mutable/dict.rs:234 -/
  | key (src edits : Nat) (str : Str)

/-- The cell of which the variable has an `Arc`. -/
def Thing.arc : Thing → Option Loc
  | .table t => some (.table t)
  | .data b => some (.buf b)
  | .scope s => some (.scope s)
  | .owned b _ => some (.buf b)
  | .iter _ sk _ => sk.map .table
  | .dict sk _ _ => sk.map .table
  | .mutIter _ _ sk _ => sk.map .table
  | .key _ _ _ => none

/-- The process: cells, `SCOPE_MAP` (scope.rs:157-160) and the variables. -/
structure World where
  tables : List (Cell SharedKeys) := []
  bufs : List (Cell Mem) := []
  scopes : List (Cell ScopeData) := []
  map : Nat → Option Nat := fun _ => none
  vars : List (Option Thing) := []

/-- The count of one cell of a list. -/
def strongOf {α : Type} (l : List (Cell α)) (i : Nat) : Nat := ((l[i]?).map (·.strong)).getD 0

/-- Change the count of one cell of a list. -/
def bump {α : Type} (f : Nat → Nat) (l : List (Cell α)) (i : Nat) : List (Cell α) :=
  l.modify i fun c => { c with strong := f c.strong }

namespace World

/-- The strong count of a cell. -/
def strong (w : World) : Loc → Nat
  | .table t => strongOf w.tables t
  | .buf b => strongOf w.bufs b
  | .scope s => strongOf w.scopes s

/-- Change a count. -/
def count (w : World) (f : Nat → Nat) : Loc → World
  | .table t => { w with tables := bump f w.tables t }
  | .buf b => { w with bufs := bump f w.bufs b }
  | .scope s => { w with scopes := bump f w.scopes s }

/-- `Arc::clone`. -/
def acquire (w : World) : Option Loc → World
  | none => w
  | some l => w.count (· + 1) l

/-- Drop an `Arc` whose content holds no `Arc`. -/
def give (w : World) : Option Loc → World
  | none => w
  | some l => w.count (· - 1) l

/-- Drop an `Arc`. With the last `Arc` of a scope its fields go. -/
def release (w : World) : Option Loc → World
  | some (.scope s) =>
    let w1 := w.give (some (.scope s))
    match w.scopes[s]? with
    | some c => if c.strong = 1 then (w1.give (c.val.sk.map .table)).give (some (.buf c.val.buf)) else w1
    | none => w1
  | l => w.give l

/-- What a variable holds, unless it is gone. -/
def get (w : World) (h : Nat) : Option Thing := (w.vars[h]?).join

/-- A new variable. -/
def push (w : World) (x : Thing) : World := { w with vars := w.vars ++ [some x] }

/-- A variable gets another content. -/
def put (w : World) (h : Nat) (x : Option Thing) : World := { w with vars := w.vars.set h x }

/-- The cell is still there. -/
def holds (w : World) (l : Loc) : Bool := decide (0 < w.strong l)

/-- `Scope::containing`, scope.rs:107-111: the entry of the map, if `upgrade` succeeds. -/
def containing (w : World) (a : Nat) : Option Nat := (w.map a).bind fun s => if w.holds (.scope s) then some s else none

/-- `Scope::find_shared_keys`, scope.rs:21-23. The `Arc` of the scope that it gets for a moment is left out. -/
def findSharedKeys (w : World) (a : Nat) : Option Nat := (w.containing a).bind fun s => (w.scopes[s]?).bind (·.val.sk)

/-- The table in a cell. -/
def table (w : World) (t : Nat) : Option SharedKeys := (w.tables[t]?).map (·.val)

/-- The buffer in a cell. -/
def buffer (w : World) (b : Nat) : Option Mem := (w.bufs[b]?).map (·.val)

end World

/-- The key that `next` finds in a slot, value/dict.rs:249-255, 271-274, with where it is. -/
def keyStr (m : Mem) (b : Nat) (sk : Option (Nat × SharedKeys)) (k : Val) : R (Option Str) := do
  let t ← k.type m
  if t = .short then
    match sk with
    | some (id, sk) => do
      let n ← k.getShort m
      pure ((sk.decode n).map fun _ => .table id n)
    | none => pure none
  else do
    let s ← k.toStr m
    pure (some (.buf b s))

/-- `next` of `SharedKeyIter` and of `Iter`, value/dict.rs:247-258, 269-277, as `Iter.dictStep`, but with where the key is. -/
def nextKey (m : Mem) (b : Nat) (sk : Option (Nat × SharedKeys)) (it : Iter) : R (Option Str × Iter) := do
  let (k, it1) ← it.step m
  match k with
  | none => pure (none, it1)
  | some k =>
    match ← keyStr m b sk k with
    | none => pure (none, it1)
    | some key =>
      let (x, it2) ← it1.step m
      match x with
      | none => pure (none, it2)
      | some _ => pure (some key, it2)

/-- `decode_key`, mutable/dict.rs:221-230, with where the key is. -/
def mutKey (sk : Option (Nat × SharedKeys)) : Key → Option Str
  | .shared c => sk.bind fun (id, sk) => (sk.decode c).map fun _ => .table id c
  | .string s => some (.own s)

/-- The steps of a program. -/
inductive Op where
  /-- `Arc::new(shared_keys)` -/
  | newTable (sk : SharedKeys)
  /-- an `Arc<[u8]>` -/
  | newData (m : Mem)
  /-- `Value::clone_from_bytes` and the like: a buffer of its own (value/mod.rs:175-186) -/
  | newOwned (m : Mem) (v : Val)
  /-- `clone` of an `Arc`, an owned value (alloced.rs:98-105) or a mutable dict (mutable/dict.rs:270-282) -/
  | clone (h : Nat)
  /-- the variable goes out of scope -/
  | drop (h : Nat)
  /-- `Scope::new`, scope.rs:77-97; both arguments are moved into the scope -/
  | scopeNew (data : Nat) (table : Option Nat)
  /-- `Scope::remove`, scope.rs:66-71 -/
  | scopeRemove (h : Nat)
  /-- `Scope::containing`, scope.rs:107-111 -/
  | containing (a : Nat)
  /-- `Scope::data`, scope.rs:33-39 -/
  | scopeData (h : Nat)
  /-- `Scope::root`, scope.rs:43-50 -/
  | scopeRoot (h : Nat)
  /-- `Scope::find_shared_keys`, scope.rs:21-23 -/
  | findSharedKeys (a : Nat)
  /-- `Dict::into_iter`, value/dict.rs:285-301, of a dict in an owned value -/
  | iter (h : Nat) (v : Val)
  /-- `next` of an iterator over a dict -/
  | next (h : Nat)
  /-- `MutableDict::new`, `new_with_shared_keys`, mutable/dict.rs:23-44; the argument is moved -/
  | newDict (table : Option Nat)
  /-- `MutableDict::clone_from`, mutable/dict.rs:31-34: the table is that of the registry; any entries -/
  | copyDict (h : Nat) (v : Val) (map : List (Key × Slot))
  /-- any method of `MutableDict` that takes `&mut self`; none changes `shared_keys` -/
  | change (h : Nat) (map : List (Key × Slot))
  /-- `MutableDict::iter`, mutable/dict.rs:252-258 -/
  | mutIter (h : Nat)
  /-- `next` of an iterator over a mutable dict, mutable/dict.rs:236-240 -/
  | mutNext (h : Nat)
  /-- the string is read -/
  | use (h : Nat)

namespace World

/-- The variable that was borrowed from is there, and is as it was. -/
def borrowed (w : World) (src edits : Nat) : Bool :=
  match w.get src with
  | some (.owned _ _) => true
  | some (.dict _ _ e) => e == edits
  | _ => false

/-- The cells whose content the step reads (apart from the counts), by value/dict.rs:247-258, mutable/dict.rs:221-240,
alloced.rs:20-22, scope.rs:33-59. -/
def touches (w : World) : Op → List Loc
  | .scopeNew d _ => match w.get d with | some (.data b) => [.buf b] | _ => []
  | .scopeRemove h | .scopeData h | .scopeRoot h => match w.get h with | some (.scope s) => [.scope s] | _ => []
  | .iter h _ | .copyDict h _ _ => match w.get h with | some (.owned b _) => [.buf b] | _ => []
  | .next h =>
    match w.get h with
    | some (.iter src sk _) =>
      (match w.get src with | some (.owned b _) => [.buf b] | _ => []) ++ (sk.map Loc.table).toList
    | _ => []
  | .mutNext h => match w.get h with | some (.mutIter _ _ sk _) => (sk.map Loc.table).toList | _ => []
  | .use h =>
    match w.get h with
    | some (.key _ _ (.buf b _)) => [.buf b]
    | some (.key _ _ (.table t _)) => [.table t]
    | _ => []
  | _ => []

/-- Take a table that is moved: its number, and the world without the variable. -/
def moveTable (w : World) : Option Nat → Option (Option Nat × World)
  | none => some (none, w)
  | some h => match w.get h with
    | some (.table t) => some (some t, w.put h none)
    | _ => none

/-- The table an iterator has, with its number. -/
def keysOf (w : World) (sk : Option Nat) : Option (Nat × SharedKeys) := sk.bind fun t => (w.table t).map fun k => (t, k)

/-- What a step does if the cells it reads are there. -/
def effect (w : World) : Op → Option (R World)
  | .newTable sk =>
    some (.ok { w.push (.table w.tables.length) with tables := w.tables ++ [⟨sk, 1⟩] })
  | .newData m => some (.ok { w.push (.data w.bufs.length) with bufs := w.bufs ++ [⟨m, 1⟩] })
  | .newOwned m v => some (.ok { w.push (.owned w.bufs.length v) with bufs := w.bufs ++ [⟨m, 1⟩] })
  | .clone h =>
    match w.get h with
    | some (.table t) => some (.ok ((w.acquire (some (.table t))).push (.table t)))
    | some (.data b) => some (.ok ((w.acquire (some (.buf b))).push (.data b)))
    | some (.scope s) => some (.ok ((w.acquire (some (.scope s))).push (.scope s)))
    | some (.owned b v) => some (.ok ((w.acquire (some (.buf b))).push (.owned b v)))
    | some (.dict sk map _) => some (.ok ((w.acquire (sk.map .table)).push (.dict sk map 0)))
    | _ => none
  | .drop h =>
    match w.get h with
    | some x => some (.ok ((w.put h none).release x.arc))
    | none => none
  | .scopeNew d t =>
    match w.get d with
    | some (.data b) =>
      match (w.put d none).moveTable t with
      | some (sk, w1) =>
        match w.buffer b with
        | some m => some <| do
          let root ← (Registry.rootOrNone m).lift
          if m.data = [] then .panic
          else
            let s := w1.scopes.length
            .ok { w1.push (.scope s) with
              scopes := w1.scopes ++ [⟨⟨sk, b, root⟩, 1⟩]
              map := fun a => if m.holds a then some s else w1.map a }
        | none => none
      | none => none
    | _ => none
  | .scopeRemove h =>
    match w.get h with
    | some (.scope s) =>
      match (w.scopes[s]?).bind fun c => w.buffer c.val.buf with
      | some m => some (.ok { w with map := fun a => if m.holds a then none else w.map a })
      | none => none
    | _ => none
  | .containing a =>
    match w.containing a with
    | some s => some (.ok ((w.acquire (some (.scope s))).push (.scope s)))
    | none => some (.ok w)
  | .scopeData h =>
    match w.get h with
    | some (.scope s) =>
      match w.scopes[s]? with
      | some c => some (.ok ((w.acquire (some (.buf c.val.buf))).push (.data c.val.buf)))
      | none => none
    | _ => none
  | .scopeRoot h =>
    match w.get h with
    | some (.scope s) =>
      match w.scopes[s]? with
      | some c =>
        match c.val.root with
        | some v => some (.ok ((w.acquire (some (.buf c.val.buf))).push (.owned c.val.buf v)))
        | none => some (.ok w)
      | none => none
    | _ => none
  | .findSharedKeys a =>
    match w.findSharedKeys a with
    | some t => some (.ok ((w.acquire (some (.table t))).push (.table t)))
    | none => some (.ok w)
  | .iter h v =>
    match w.get h with
    | some (.owned b _) =>
      match w.buffer b with
      | some m => some <| do
        let sk := w.findSharedKeys (m.base + v.pos)
        let it ← v.dictIter m
        .ok ((w.acquire (sk.map .table)).push (.iter h sk it))
      | none => none
    | _ => none
  | .next h =>
    match w.get h with
    | some (.iter src sk it) =>
      match w.get src with
      | some (.owned b _) =>
        match w.buffer b with
        | some m => some <| do
          let (k, it) ← nextKey m b (w.keysOf sk) it
          let w1 := w.put h (some (.iter src sk it))
          match k with
          | some s => .ok (w1.push (.key src 0 s))
          | none => .ok w1
        | none => none
      | _ => none
    | _ => none
  | .newDict t =>
    match w.moveTable t with
    | some (sk, w1) => some (.ok (w1.push (.dict sk [] 0)))
    | none => none
  | .copyDict h v map =>
    match w.get h with
    | some (.owned b _) =>
      match w.buffer b with
      | some m =>
        let sk := w.findSharedKeys (m.base + v.pos)
        some (.ok ((w.acquire (sk.map .table)).push (.dict sk map 0)))
      | none => none
    | _ => none
  | .change h map =>
    match w.get h with
    | some (.dict sk _ e) => some (.ok (w.put h (some (.dict sk map (e + 1)))))
    | _ => none
  | .mutIter h =>
    match w.get h with
    | some (.dict sk map e) => some (.ok ((w.acquire (sk.map .table)).push (.mutIter h e sk map)))
    | _ => none
  | .mutNext h =>
    match w.get h with
    | some (.mutIter src e sk rest) =>
      if w.borrowed src e then
        match rest with
        | [] => some (.ok w)
        | x :: rest =>
          let w1 := w.put h (some (.mutIter src e sk rest))
          match mutKey (w.keysOf sk) x.1 with
          | some s => some (.ok (w1.push (.key src e s)))
          | none => some (.ok w1)
      else none
    | _ => none
  | .use h =>
    match w.get h with
    | some (.key src e _) => if w.borrowed src e then some (.ok w) else none
    | _ => none

/-- A step: memory that was given back must not be read. -/
def step (w : World) (op : Op) : Option (R World) :=
  match w.effect op with
  | none => none
  | some r => if (w.touches op).all w.holds then some r else some .ub

/-- A program. -/
def run (w : World) : List Op → Option (R World)
  | [] => some (.ok w)
  | op :: ops =>
    match w.step op with
    | some (.ok w) => w.run ops
    | r => r

end World

end Fleece.Life

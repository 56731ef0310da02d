import Verif.Model.WriteFleece
import Verif.Model.Macro
import Verif.Model.Scoped
import Verif.Model.De
import Verif.Model.Index
import Verif.Props.C18

/-!
# The tests of the repository, run on the model

These are tests of the model, not proofs of properties: every test of src/tests.rs, src/value/varint.rs and tests/serde.rs that
does not need 1000people.fleece (1.2 MB, too large for lists) is made here with the model instead of the code, on the same inputs
and with the same expectations. They are evaluated when the file is built (`#guard`). `encode_person` is the strongest: the model writes the file
1person.fleece byte for byte.
-/

namespace Fleece.Conformance
open Fleece Res

/-- The bytes of a string literal. -/
macro "b!" s:str : term => do
  let bs := s.getString.toUTF8.toList
  let ts ← bs.mapM fun b => `(($(Lean.Syntax.mkNumLit (toString b.toNat)) : UInt8))
  `([$(ts.toArray),*])

/-- A string literal. -/
macro "s!!" s:str : term => `((⟨b! $s, by decide +kernel⟩ : RStr))

/-- The test expects a value, on which it then makes assertions. -/
def expect {ε α : Type} (x : Res ε α) (p : α → Bool) : Bool :=
  match x with
  | .ok a => p a
  | _ => false

/-- `unwrap` of an `Option` in a result. -/
def expectSome {ε α : Type} (x : Res ε (Option α)) (p : α → Bool) : Bool :=
  match x with
  | .ok (some a) => p a
  | _ => false

/-- `unwrap` of a `Result` of the encoder. -/
def expectDone {ε β : Type} (x : Res ε (Enc × Except β Unit)) (p : Enc → Bool) : Bool :=
  match x with
  | .ok (e, .ok ()) => p e
  | _ => false

/-- No test depends on rounding: only that `narrow` undoes `widen`. -/
def F : FloatOps := ⟨fun x => x.toUInt64, fun x => x.toUInt32, fun _ => 0, fun _ => 0, fun _ => 0, fun _ => 0⟩
/-- Not used by the values of the tests. -/
def N : NumOps := ⟨fun _ => 0, fun _ => 0⟩
/-- The debug build, and an insertion sort. -/
def c : Cfg := Props.exampleCfg

/-- 1person.fleece -/
def person : List UInt8 := [
  0x43, 0x5f, 0x69, 0x64, 0x4f, 0x18, 0x35, 0x36, 0x35, 0x31, 0x36, 0x63, 0x38, 0x31, 0x62, 0x38, 0x36, 0x34, 0x39, 0x34,
  0x32, 0x65, 0x31, 0x61, 0x63, 0x63, 0x61, 0x36, 0x64, 0x39, 0x45, 0x61, 0x62, 0x6f, 0x75, 0x74, 0x4f, 0xe5, 0x02, 0x45,
  0x6c, 0x69, 0x74, 0x20, 0x75, 0x74, 0x20, 0x64, 0x75, 0x69, 0x73, 0x20, 0x64, 0x65, 0x73, 0x65, 0x72, 0x75, 0x6e, 0x74,
  0x20, 0x65, 0x78, 0x63, 0x65, 0x70, 0x74, 0x65, 0x75, 0x72, 0x20, 0x69, 0x64, 0x20, 0x69, 0x6e, 0x20, 0x74, 0x65, 0x6d,
  0x70, 0x6f, 0x72, 0x20, 0x69, 0x70, 0x73, 0x75, 0x6d, 0x20, 0x73, 0x75, 0x6e, 0x74, 0x2e, 0x20, 0x50, 0x61, 0x72, 0x69,
  0x61, 0x74, 0x75, 0x72, 0x20, 0x75, 0x6c, 0x6c, 0x61, 0x6d, 0x63, 0x6f, 0x20, 0x75, 0x6c, 0x6c, 0x61, 0x6d, 0x63, 0x6f,
  0x20, 0x61, 0x6c, 0x69, 0x71, 0x75, 0x61, 0x20, 0x64, 0x6f, 0x6c, 0x6f, 0x72, 0x65, 0x20, 0x61, 0x6c, 0x69, 0x71, 0x75,
  0x61, 0x20, 0x64, 0x6f, 0x20, 0x65, 0x61, 0x20, 0x6d, 0x6f, 0x6c, 0x6c, 0x69, 0x74, 0x20, 0x65, 0x73, 0x74, 0x20, 0x61,
  0x75, 0x74, 0x65, 0x20, 0x64, 0x6f, 0x6c, 0x6f, 0x72, 0x65, 0x2e, 0x20, 0x41, 0x6d, 0x65, 0x74, 0x20, 0x71, 0x75, 0x69,
  0x20, 0x76, 0x65, 0x6c, 0x69, 0x74, 0x20, 0x73, 0x69, 0x74, 0x20, 0x61, 0x6c, 0x69, 0x71, 0x75, 0x69, 0x70, 0x20, 0x69,
  0x70, 0x73, 0x75, 0x6d, 0x20, 0x64, 0x65, 0x73, 0x65, 0x72, 0x75, 0x6e, 0x74, 0x20, 0x76, 0x65, 0x6e, 0x69, 0x61, 0x6d,
  0x20, 0x63, 0x75, 0x70, 0x69, 0x64, 0x61, 0x74, 0x61, 0x74, 0x20, 0x76, 0x6f, 0x6c, 0x75, 0x70, 0x74, 0x61, 0x74, 0x65,
  0x20, 0x6e, 0x69, 0x73, 0x69, 0x20, 0x65, 0x6c, 0x69, 0x74, 0x2e, 0x20, 0x45, 0x73, 0x74, 0x20, 0x64, 0x6f, 0x6c, 0x6f,
  0x72, 0x20, 0x65, 0x6e, 0x69, 0x6d, 0x20, 0x65, 0x69, 0x75, 0x73, 0x6d, 0x6f, 0x64, 0x20, 0x61, 0x6d, 0x65, 0x74, 0x20,
  0x74, 0x65, 0x6d, 0x70, 0x6f, 0x72, 0x20, 0x63, 0x75, 0x6c, 0x70, 0x61, 0x20, 0x63, 0x6f, 0x6d, 0x6d, 0x6f, 0x64, 0x6f,
  0x20, 0x64, 0x6f, 0x6c, 0x6f, 0x72, 0x2e, 0x20, 0x4e, 0x6f, 0x73, 0x74, 0x72, 0x75, 0x64, 0x20, 0x61, 0x75, 0x74, 0x65,
  0x20, 0x64, 0x65, 0x73, 0x65, 0x72, 0x75, 0x6e, 0x74, 0x20, 0x64, 0x6f, 0x20, 0x71, 0x75, 0x69, 0x20, 0x64, 0x6f, 0x6c,
  0x6f, 0x72, 0x2e, 0x20, 0x41, 0x64, 0x20, 0x65, 0x78, 0x65, 0x72, 0x63, 0x69, 0x74, 0x61, 0x74, 0x69, 0x6f, 0x6e, 0x20,
  0x69, 0x64, 0x20, 0x73, 0x69, 0x74, 0x20, 0x61, 0x6e, 0x69, 0x6d, 0x20, 0x64, 0x65, 0x73, 0x65, 0x72, 0x75, 0x6e, 0x74,
  0x20, 0x65, 0x69, 0x75, 0x73, 0x6d, 0x6f, 0x64, 0x20, 0x65, 0x6c, 0x69, 0x74, 0x2e, 0x0d, 0x0a, 0x47, 0x61, 0x64, 0x64,
  0x72, 0x65, 0x73, 0x73, 0x4f, 0x27, 0x39, 0x32, 0x37, 0x20, 0x48, 0x69, 0x6e, 0x73, 0x64, 0x61, 0x6c, 0x65, 0x20, 0x53,
  0x74, 0x72, 0x65, 0x65, 0x74, 0x2c, 0x20, 0x56, 0x69, 0x72, 0x67, 0x69, 0x65, 0x2c, 0x20, 0x4f, 0x68, 0x69, 0x6f, 0x2c,
  0x20, 0x34, 0x34, 0x33, 0x36, 0x00, 0x43, 0x61, 0x67, 0x65, 0x47, 0x62, 0x61, 0x6c, 0x61, 0x6e, 0x63, 0x65, 0x49, 0x24,
  0x31, 0x2c, 0x34, 0x35, 0x38, 0x2e, 0x38, 0x32, 0x47, 0x63, 0x6f, 0x6d, 0x70, 0x61, 0x6e, 0x79, 0x46, 0x42, 0x4c, 0x45,
  0x45, 0x4b, 0x4f, 0x00, 0x45, 0x65, 0x6d, 0x61, 0x69, 0x6c, 0x4f, 0x16, 0x67, 0x6c, 0x65, 0x6e, 0x64, 0x61, 0x6d, 0x6f,
  0x72, 0x73, 0x65, 0x40, 0x62, 0x6c, 0x65, 0x65, 0x6b, 0x6f, 0x2e, 0x63, 0x6f, 0x6d, 0x48, 0x65, 0x79, 0x65, 0x43, 0x6f,
  0x6c, 0x6f, 0x72, 0x00, 0x44, 0x62, 0x6c, 0x75, 0x65, 0x00, 0x47, 0x66, 0x72, 0x69, 0x65, 0x6e, 0x64, 0x73, 0x42, 0x69,
  0x64, 0x00, 0x44, 0x6e, 0x61, 0x6d, 0x65, 0x00, 0x4f, 0x0f, 0x4d, 0x61, 0x67, 0x64, 0x61, 0x6c, 0x65, 0x6e, 0x61, 0x20,
  0x4d, 0x6f, 0x6f, 0x72, 0x65, 0x00, 0x70, 0x02, 0x80, 0x0f, 0x00, 0x00, 0x80, 0x0f, 0x80, 0x0d, 0x42, 0x69, 0x64, 0x00,
  0x44, 0x6e, 0x61, 0x6d, 0x65, 0x00, 0x4e, 0x57, 0x61, 0x74, 0x74, 0x73, 0x20, 0x54, 0x6f, 0x77, 0x6e, 0x73, 0x65, 0x6e,
  0x64, 0x00, 0x70, 0x02, 0x80, 0x0e, 0x00, 0x01, 0x80, 0x0e, 0x80, 0x0c, 0x42, 0x69, 0x64, 0x00, 0x44, 0x6e, 0x61, 0x6d,
  0x65, 0x00, 0x4d, 0x4f, 0x77, 0x65, 0x6e, 0x73, 0x20, 0x45, 0x76, 0x65, 0x72, 0x65, 0x74, 0x74, 0x70, 0x02, 0x80, 0x0d,
  0x00, 0x02, 0x80, 0x0d, 0x80, 0x0b, 0x60, 0x03, 0x80, 0x29, 0x80, 0x18, 0x80, 0x08, 0x46, 0x67, 0x65, 0x6e, 0x64, 0x65,
  0x72, 0x00, 0x46, 0x66, 0x65, 0x6d, 0x61, 0x6c, 0x65, 0x00, 0x44, 0x67, 0x75, 0x69, 0x64, 0x00, 0x4f, 0x24, 0x63, 0x32,
  0x62, 0x36, 0x31, 0x64, 0x30, 0x64, 0x2d, 0x61, 0x63, 0x38, 0x33, 0x2d, 0x34, 0x37, 0x66, 0x36, 0x2d, 0x61, 0x65, 0x35,
  0x39, 0x2d, 0x62, 0x36, 0x61, 0x38, 0x65, 0x33, 0x62, 0x66, 0x33, 0x61, 0x62, 0x38, 0x45, 0x69, 0x6e, 0x64, 0x65, 0x78,
  0x48, 0x69, 0x73, 0x41, 0x63, 0x74, 0x69, 0x76, 0x65, 0x00, 0x48, 0x6c, 0x61, 0x74, 0x69, 0x74, 0x75, 0x64, 0x65, 0x00,
  0x28, 0x00, 0x61, 0x17, 0x45, 0x0f, 0x7c, 0x78, 0x44, 0x40, 0x49, 0x6c, 0x6f, 0x6e, 0x67, 0x69, 0x74, 0x75, 0x64, 0x65,
  0x28, 0x00, 0x5d, 0xa9, 0x67, 0x41, 0x28, 0x27, 0x35, 0xc0, 0x44, 0x6e, 0x61, 0x6d, 0x65, 0x00, 0x4c, 0x47, 0x6c, 0x65,
  0x6e, 0x64, 0x61, 0x20, 0x4d, 0x6f, 0x72, 0x73, 0x65, 0x00, 0x45, 0x70, 0x68, 0x6f, 0x6e, 0x65, 0x4f, 0x11, 0x2b, 0x31,
  0x20, 0x28, 0x39, 0x31, 0x31, 0x29, 0x20, 0x34, 0x31, 0x33, 0x2d, 0x32, 0x34, 0x34, 0x33, 0x00, 0x47, 0x70, 0x69, 0x63,
  0x74, 0x75, 0x72, 0x65, 0x4f, 0x19, 0x68, 0x74, 0x74, 0x70, 0x3a, 0x2f, 0x2f, 0x70, 0x6c, 0x61, 0x63, 0x65, 0x68, 0x6f,
  0x6c, 0x64, 0x2e, 0x69, 0x74, 0x2f, 0x33, 0x32, 0x78, 0x33, 0x32, 0x00, 0x4a, 0x72, 0x65, 0x67, 0x69, 0x73, 0x74, 0x65,
  0x72, 0x65, 0x64, 0x00, 0x4f, 0x1a, 0x32, 0x30, 0x31, 0x34, 0x2d, 0x30, 0x31, 0x2d, 0x32, 0x38, 0x54, 0x30, 0x35, 0x3a,
  0x33, 0x37, 0x3a, 0x30, 0x33, 0x20, 0x2b, 0x30, 0x38, 0x3a, 0x30, 0x30, 0x44, 0x74, 0x61, 0x67, 0x73, 0x00, 0x44, 0x71,
  0x75, 0x69, 0x73, 0x00, 0x47, 0x6c, 0x61, 0x62, 0x6f, 0x72, 0x75, 0x6d, 0x47, 0x6f, 0x66, 0x66, 0x69, 0x63, 0x69, 0x61,
  0x4b, 0x61, 0x64, 0x69, 0x70, 0x69, 0x73, 0x69, 0x63, 0x69, 0x6e, 0x67, 0x42, 0x65, 0x74, 0x00, 0x47, 0x6c, 0x61, 0x62,
  0x6f, 0x72, 0x75, 0x6d, 0x46, 0x74, 0x65, 0x6d, 0x70, 0x6f, 0x72, 0x00, 0x60, 0x07, 0x80, 0x1c, 0x80, 0x1a, 0x80, 0x17,
  0x80, 0x14, 0x80, 0x0f, 0x80, 0x0e, 0x80, 0x0b, 0x44, 0x74, 0x79, 0x70, 0x65, 0x00, 0x46, 0x70, 0x65, 0x72, 0x73, 0x6f,
  0x6e, 0x00, 0x70, 0x15, 0x81, 0xec, 0x81, 0xeb, 0x81, 0xdf, 0x81, 0xdd, 0x81, 0x2a, 0x81, 0x27, 0x81, 0x13, 0x00, 0x1e,
  0x81, 0x13, 0x81, 0x10, 0x81, 0x0c, 0x81, 0x09, 0x81, 0x06, 0x81, 0x04, 0x80, 0xf9, 0x80, 0xf5, 0x80, 0xf3, 0x80, 0xba,
  0x80, 0xb7, 0x80, 0xb4, 0x80, 0xb1, 0x80, 0xaf, 0x80, 0x9d, 0x00, 0x00, 0x80, 0x9c, 0x38, 0x00, 0x80, 0x99, 0x80, 0x95,
  0x80, 0x91, 0x80, 0x8d, 0x80, 0x89, 0x80, 0x87, 0x80, 0x81, 0x80, 0x7f, 0x80, 0x76, 0x80, 0x73, 0x80, 0x66, 0x80, 0x61,
  0x80, 0x54, 0x80, 0x37, 0x80, 0x30, 0x80, 0x2e, 0x80, 0x2b]

/-- The file in memory. -/
def pm : Mem := ⟨person, 0x1000, true⟩

/-- `decode_person_checks`, tests.rs:13-32. -/
def personChecks (m : Mem) (v : Val) : Bool :=
  expect (v.type m) (· == .dict) &&
  expectSome (v.asDict m) fun d =>
    expect (d.dictLen m) (· == 21) &&
    expectSome (d.dictGet m none (b! "age")) (fun a =>
      expect (a.type m) (· == .short) && expect (a.toShort m F) (· == 30)) &&
    expect (d.dictIter m) fun it => expect (collectDict m none (fun _ => .ok ()) (it.len + 1) it) (·.length == 21)

-- `decode_person`, tests.rs:34-39.
#guard expect (fromBytes pm) (personChecks pm)

-- `encode_person`, tests.rs:78-92.
#guard expect (fromBytes pm) (fun v =>
    expectDone (Enc.writeFleece c pm F none 10 v Enc.new) fun e =>
      expect (e.finish c) fun res =>
        expect (fromBytes ⟨res, 0x8000, true⟩) (fun w => personChecks ⟨res, 0x8000, true⟩ w) && res == person)

-- `encoder_multiple_top_level_collections`, tests.rs:106-116.
#guard expect (Enc.new.run c [.beginArray 1, .value (.i32 42), .endArray, .beginArray 1]) (fun r =>
    decide (r.2 = [.ok (), .ok (), .ok (), .error .multiTopLevelCollection]))

/-- A call on the registry that is expected to give a scope. -/
def expectScope (x : Registry.Out Nat) (p : Registry → ScopeRec → Bool) : Bool :=
  match x with
  | (r, .ok id) => match r.scopes[id]? with
    | some s => p r s
    | none => false
  | _ => false

-- `shared_keys`, tests.rs:168-199.
#guard expect ((Enc.new.setSharedKeys .new).run c [.beginDict, .key (s!! "name"), .value (.str (s!! "John")),
      .key (s!! "Address Line 1"), .value (.str (s!! "3250 Olcott St"))]) (fun (e, rs) =>
    rs.all (decide <| · = .ok ()) &&
    expectScope (Registry.finishScoped {} c e 0x4000) fun r s =>
      (s.sharedKeys.map (·.len)) == some 1 &&
      match s.rootValue with
      | none => false
      | some a =>
        expectSome (a.value.asDict a.mem) fun d =>
          expectSome (r.dictGet a.mem d (b! "name")) (fun v => expect (v.toStr a.mem) (· == b! "John")) &&
          expectSome (r.dictGet a.mem d (b! "Address Line 1")) (fun v => expect (v.toStr a.mem) (· == b! "3250 Olcott St")))

/-- The keys that iterating over a dict gives. -/
def keys (r : Registry) (m : Mem) (v : Val) : R (List (List UInt8)) := do
  let kvs ← r.entries m (fun _ => .ok ()) v
  pure (kvs.map (·.1))

-- `shared_keys_iter`, tests.rs:201-217: the keys are the same set.
#guard expect (fromBytes pm) (fun v =>
    expectDone (Enc.writeFleece c pm F none 10 v (Enc.new.setSharedKeys .new)) fun e =>
      expectScope (Registry.finishScoped {} c e 0x4000) fun r s =>
        match s.rootValue with
        | none => false
        | some a =>
          expect (keys r a.mem a.value) fun ks => expect (keys r pm v) fun ks' =>
            ks.all (ks'.contains ·) && ks'.all (ks.contains ·))

-- `alloced_value`, tests.rs:219-225.
#guard expect (cloneFromBytes true 0x9000 person) (fun a => personChecks a.mem a.value)

/-- The bytes in a slot of a mutable collection, read as a `&Value`. -/
def slotValue {α : Type} (s : Slot) (x : Sel) (f : Mem → Val → R α) (p : α → Bool) : Bool :=
  match s.index x with
  | .ok bs => expect (f ⟨bs, 0x7000, true⟩ ⟨0, bs.length⟩) p
  | _ => false

/-- `s[x].to_short() == n` -/
def isShort (s : Slot) (x : Sel) (n : Int) : Bool := slotValue s x (fun m v => v.toShort m F) (· == n)
/-- `s[x].to_str() == t` -/
def isStr (s : Slot) (x : Sel) (t : List UInt8) : Bool := slotValue s x (fun m v => v.toStr m) (· == t)

/-- `insert`, `push` of a scalar. -/
def putNew (s : Slot) (p : Slot.Place) (x : Scalar) : Exec Slot := do
  let n ← Slot.new true x
  Slot.put p n s

-- `mutable_dict`, tests.rs:227-245.
#guard expect (cloneFromBytes true 0x9000 person) (fun a => expectSome a.toDict fun a =>
    expect (Slot.newFromFleece a.mem F none 10 a.value false) fun d =>
      isShort d (.key (b! "age")) 30 &&
      expect (putNew d (.insert (b! "age")) (.i32 52)) fun d =>
      isShort d (.key (b! "age")) 52 &&
      expect (d.remove (.key (b! "age"))) fun d =>
      !d.containsKey (b! "age") &&
      !d.clone.containsKey (b! "age") &&
      expect (putNew d (.insert (b! "age")) (.i32 28)) fun d =>
      isShort d (.key (b! "age")) 28)

/-- The strings of `mutable_array`. -/
def strings : List RStr := [s!! "Zero", s!! "One", s!! "Two", s!! "Three", s!! "Four", s!! "Five", s!! "Six"]

-- `mutable_array`, tests.rs:247-277.
#guard expect (Enc.new.run c (.beginArray 7 :: strings.map (fun s => .value (.str s)) ++ [.endArray])) (fun (e, rs) =>
    rs.all (decide <| · = .ok ()) &&
    expect (e.finishValue c 0x9000) fun a => expectSome a.toArray fun a =>
      expect (Slot.newFromFleece a.mem F none 10 a.value false) fun l =>
      (List.range 7).all (fun i => (strings[i]?).any fun s => isStr l (.idx i) s.bytes) &&
      expect (putNew l .push (.str (s!! "Seven"))) fun l =>
      isStr l (.idx (l.len - 1)) (b! "Seven") &&
      expect (l.remove (.idx 2)) fun l =>
      isStr l (.idx 2) (b! "Three") && l.len == 7 &&
      isStr l.clone (.idx 2) (b! "Three") && isStr l.clone (.idx 6) (b! "Seven"))

/-- `get_dict` and `get_array`, followed by assertions on the collection. -/
def within (s : Slot) (sel : Sel) (dict : Bool) (p : Slot → Bool) : Bool := (s.follow [⟨sel, dict⟩]).any p

/-- The literal of `nested_mutable_dict`; 166.5 is 0x4064d00000000000. -/
def jeff : Lit := .dict [(s!! "name", .val (.str (s!! "Jeff"))), (s!! "age", .val (.i32 35)),
  (s!! "height", .val (.f64 0x4064d00000000000)),
  (s!! "contact", .dict [(s!! "email", .val (.str (s!! "contact@jeffbaggins.com"))),
    (s!! "phone_number", .val (.str (s!! "+1 234 56789")))])]

-- `nested_mutable_dict`, tests.rs:279-310.
#guard expect (jeff.fleece c 0x9000) (fun a =>
    expect (Slot.newFromFleece a.mem F none 10 a.value false) fun d =>
      within d (.key (b! "contact")) true (fun k =>
        isStr k (.key (b! "email")) (b! "contact@jeffbaggins.com") &&
        isStr k (.key (b! "phone_number")) (b! "+1 234 56789")) &&
      expect (d.update (fun k => putNew k (.insert (b! "Address")) (.str (s!! "3250 Olcott St"))) [⟨.key (b! "contact"), true⟩]) fun d =>
      within d (.key (b! "contact")) true (fun k => isStr k (.key (b! "Address")) (b! "3250 Olcott St")) &&
      expect ((Lit.arr [.val (.str (s!! "contact@jeffbaggins.com")), .val (.str (s!! "jeff.baggins@example.com"))]).fleece c 0xA000)
        fun b =>
      expect (Slot.newFromFleece b.mem F none 10 b.value false) fun l =>
      expect (Slot.put (.insert (b! "email")) l d) fun d =>
      within d (.key (b! "email")) false (fun l =>
        isStr l (.idx 0) (b! "contact@jeffbaggins.com") && isStr l (.idx 1) (b! "jeff.baggins@example.com")))

-- `nested_mutable_array`, tests.rs:312-324.
#guard expect ((Lit.arr [.val (.i32 23), .dict [(s!! "name", .val (.str (s!! "Jeff"))), (s!! "age", .val (.i32 35))]]).fleece
      c 0x9000) (fun a =>
    expect (a.value.debugArray a.mem (Val.debug ⟨fun _ => [], fun _ => true⟩ a.mem F none 10)) (fun _ => true) &&
    expect (Slot.newFromFleece a.mem F none 10 a.value false) fun l =>
      within l (.idx 1) true (fun d => isStr d (.key (b! "name")) (b! "Jeff") && isShort d (.key (b! "age")) 35) &&
      expect (l.update (fun k => putNew k (.insert (b! "Address")) (.str (s!! "3250 Olcott St"))) [⟨.idx 1, true⟩]) fun l =>
      within l (.idx 1) true (fun d => isStr d (.key (b! "Address")) (b! "3250 Olcott St")))

-- `varint`, varint.rs:60-75.
#guard [8704268, 100000, 603, 87].all (fun n =>
    (Varint.write n).length == Varint.sizeRequired n &&
    expect (Varint.read (ε := Empty) true (Varint.write n)) (·.2 == n))

/-! ## tests/serde.rs -/

/-- `ScienceClass`, `Class`, `GamePlatform`, `Favourite`, `Student`; serde.rs:3-58. -/
def types : List Ty :=
  [ .enum [(s!! "Physics", .unit), (s!! "Biology", .unit), (s!! "Chemistry", .unit)],
    .enum [(s!! "Maths", .unit), (s!! "English", .unit), (s!! "Science", .newtype (.named 0)), (s!! "Other", .newtype .string)],
    .enum [(s!! "PC", .unit), (s!! "PlayStation", .unit), (s!! "Xbox", .unit)],
    .enum [(s!! "Song", .struct [(s!! "artist", .string), (s!! "name", .string)]), (s!! "Movie", .newtype .string),
      (s!! "Game", .struct [(s!! "name", .string), (s!! "platform", .named 2)])],
    .struct [(s!! "id", .int .u64), (s!! "name", .string), (s!! "age", .int .u16), (s!! "favourite_class", .option (.named 1)),
      (s!! "favourites", .seq (.named 3)), (s!! "lucky_floats", .option (.tuple [.f32, .f32, .f32]))] ]

/-- The students, serde.rs:66-106. The floats are 0x40f60c4a, 0xc1fbe14d, 0x4c57dd32. -/
def students : SVal := .seq (some 2) [
  .struct [(s!! "id", .prim (.int .u64 123456)), (s!! "name", .prim (.str (s!! "Jens"))), (s!! "age", .prim (.int .u16 17)),
    (s!! "favourite_class", .some (.unitVariant (s!! "Maths"))),
    (s!! "favourites", .seq (some 2) [
      .structVariant (s!! "Song") [(s!! "artist", .prim (.str (s!! "Queen"))), (s!! "name", .prim (.str (s!! "We Will Rock You")))],
      .structVariant (s!! "Game") [(s!! "name", .prim (.str (s!! "Doom"))), (s!! "platform", .unitVariant (s!! "PC"))]]),
    (s!! "lucky_floats", .none)],
  .struct [(s!! "id", .prim (.int .u64 946)), (s!! "name", .prim (.str (s!! "Bork"))), (s!! "age", .prim (.int .u16 16)),
    (s!! "favourite_class", .some (.newtypeVariant (s!! "Other") (.prim (.str (s!! "Computer Science"))))),
    (s!! "favourites", .seq (some 2) [
      .newtypeVariant (s!! "Movie") (.prim (.str (s!! "Rogue One: A Star Wars Story"))),
      .structVariant (s!! "Song") [(s!! "artist", .prim (.str (s!! "Linkin Park"))), (s!! "name", .prim (.str (s!! "From the Inside")))]]),
    (s!! "lucky_floats", .some (.tuple [.prim (.f32 0x40f60c4a), .prim (.f32 0xc1fbe14d), .prim (.f32 0x4c57dd32)]))]]

mutual
/-- Equality of values, as the derived `PartialEq` of the types above has it. -/
def same : SVal → SVal → Bool
  | .prim (.int t n), .prim (.int u k) => t == u && n == k
  | .prim (.str a), .prim (.str b) => a.bytes == b.bytes
  | .prim (.f32 a), .prim (.f32 b) => a == b
  | .none, .none => true
  | .some a, .some b => same a b
  | .unitVariant a, .unitVariant b => a.bytes == b.bytes
  | .newtypeVariant a x, .newtypeVariant b y => a.bytes == b.bytes && same x y
  | .seq _ xs, .seq _ ys => sames xs ys
  | .tuple xs, .tuple ys => sames xs ys
  | .struct xs, .struct ys => sameFields xs ys
  | .structVariant a xs, .structVariant b ys => a.bytes == b.bytes && sameFields xs ys
  | _, _ => false
def sames : List SVal → List SVal → Bool
  | [], [] => true
  | x :: xs, y :: ys => same x y && sames xs ys
  | _, _ => false
def sameFields : List (RStr × SVal) → List (RStr × SVal) → Bool
  | [], [] => true
  | x :: xs, y :: ys => x.1.bytes == y.1.bytes && same x.2 y.2 && sameFields xs ys
  | _, _ => false
end

/-- Serializing succeeds, and deserializing gives the same value. -/
def roundTrip (sk : Option SharedKeys) (ty : Ty) (x : SVal) : Bool :=
  match Ser.toBytes c sk x with
  | .ok (.ok (out, sk)) => expect (Ty.fromBytes ⟨⟨out, 0x5000, true⟩, F, N, sk, types⟩ 20 ty) (same x)
  | _ => false

/-- Serializing gives the error. -/
def refused (x : SVal) (err : SerError) : Bool :=
  match Ser.toBytes c none x with
  | .ok (.error e) => e == err
  | _ => false

-- `serde`, serde.rs:63-128.
#guard (roundTrip none (.seq (.named 4)) students && roundTrip none (.named 1) (.unitVariant (s!! "Maths")) &&
    refused (.prim (.str (s!! "hihi"))) .valueNotCollection && refused .unitStruct .valueNotCollection)

-- `serde_shared_keys`, serde.rs:130-182: as above, with a table.
#guard roundTrip (some .new) (.seq (.named 4)) students

end Fleece.Conformance

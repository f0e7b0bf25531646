import Verif.Spec.Stored

/-!
# Specification: the byte format of version 2 files

A grammar: which sequences of bytes stand for which recording. docs/formats/v2/README.md fixes only the numbers of
variable length and the strings; the rest is the format of this commit, set down as a description of files. No function
of the model that produces or consumes bytes is used. A relation `R x b` says that the bytes `b` stand for `x`.
-/

namespace Rap
namespace Layout

/-! ## Numbers and strings -/

/-- Unsigned number of variable length: seven bits per byte, the low ones first; all bytes but the last have their top
bit set. No superfluous zero at the end. -/
inductive Varint : Nat → Bytes → Prop where
  | last (c : UInt8) : c.toNat < 128 → Varint c.toNat [c]
  | more (c : UInt8) {n : Nat} {b : Bytes} : 128 ≤ c.toNat → n ≠ 0 → Varint n b →
      Varint (c.toNat - 128 + 128 * n) (c :: b)

/-- Unsigned number in `k` bytes, the low byte first. -/
inductive Fixed : (k : Nat) → Nat → Bytes → Prop where
  | nil : Fixed 0 0 []
  | cons (c : UInt8) {k n : Nat} {b : Bytes} : Fixed k n b → Fixed (k + 1) (c.toNat + 256 * n) (c :: b)

/-- The items one after another. -/
inductive Many {α : Type} (R : α → Bytes → Prop) : List α → Bytes → Prop where
  | nil : Many R [] []
  | cons {a : α} {as : List α} {b bs : Bytes} : R a b → Many R as bs → Many R (a :: as) (b ++ bs)

/-- Their number, then the items. -/
inductive Counted {α : Type} (R : α → Bytes → Prop) (as : List α) : Bytes → Prop where
  | mk {n bs : Bytes} : Varint as.length n → Many R as bs → Counted R as (n ++ bs)

/-- The length, then the bytes. -/
inductive Text (s : Bytes) : Bytes → Prop where
  | mk {n : Bytes} : Varint s.length n → Text s (n ++ s)

/-- A double: its IEEE 754 bits. -/
abbrev Double (x : F64) (b : Bytes) : Prop := Fixed 8 x.toNat b
/-- A single. -/
abbrev Single (x : F32) (b : Bytes) : Prop := Fixed 4 x.toNat b

/-! ## Metadata -/

/-- The byte in front of a value. -/
def typeCode : Property → UInt8
  | .str _ => 0
  | .int32 _ => 1
  | .f32 _ => 2
  | .bool true => 3
  | .bool false => 4
  | .byte _ => 5
  | .vec2 .. => 6
  | .vec3 .. => 7
  | .block _ => 11
  | .time _ => 12
  | .array c _ => 13 + c
  | .raw c _ => 13 + c
  | .nil => 255

mutual
/-- A value, without the byte in front. -/
inductive Value : Property → Bytes → Prop where
  | str {s b : Bytes} : Text s b → Value (.str s) b
  | int {i : BitVec 32} {b : Bytes} : Fixed 4 i.toNat b → Value (.int32 i) b
  | f32 {f : F32} {b : Bytes} : Single f b → Value (.f32 f) b
  | bool (x : Bool) : Value (.bool x) []
  | byte (c : UInt8) : Value (.byte c) [c]
  | vec2 {x y : F64} {a b : Bytes} : Double x a → Double y b → Value (.vec2 x y) (a ++ b)
  | vec3 {x y z : F64} {a b c : Bytes} : Double x a → Double y b → Double z c → Value (.vec3 x y z) (a ++ (b ++ c))
  | time {t : BitVec 64} {b : Bytes} : Fixed 8 t.toNat b → Value (.time t) b
  /-- all keys, then all values -/
  | block {kvs : Block} {a b : Bytes} : (kvs.map (·.1)).Nodup → Counted Text (kvs.map (·.1)) a → Values kvs b →
      Value (.block kvs) (a ++ b)
  /-- strings, ints, floats, vectors, blocks, times: the elements have no byte in front -/
  | array {c : UInt8} {ps : List Property} {a b : Bytes} : c ∈ ([0, 1, 2, 6, 7, 11, 12] : List UInt8) →
      (∀ p ∈ ps, typeCode p = c) → Varint ps.length a → Elements ps b → Value (.array c ps) (a ++ b)
  /-- booleans (3) and bytes (5): one byte each; the value keeps its stored form -/
  | raw {c : UInt8} {s b : Bytes} : c ∈ ([3, 5] : List UInt8) → Text s b → Value (.raw c b) b

/-- Values with the byte in front. -/
inductive Values : Block → Bytes → Prop where
  | nil : Values [] []
  | cons {k : Bytes} {p : Property} {kvs : Block} {b bs : Bytes} : Value p b → Values kvs bs →
      Values ((k, p) :: kvs) (typeCode p :: (b ++ bs))

/-- Elements of an array. -/
inductive Elements : List Property → Bytes → Prop where
  | nil : Elements [] []
  | cons {p : Property} {ps : List Property} {b bs : Bytes} : Value p b → Elements ps bs → Elements (p :: ps) (b ++ bs)
end

/-- A metadata block whose keys are given by their places in a table. -/
inductive Meta (keys : List Bytes) (md : Block) : Bytes → Prop where
  | mk {places : List Nat} {a b : Bytes} : (md.map (·.1)).Nodup →
      List.Forall₂ (fun i (kv : Bytes × Property) => keys[i]? = some kv.1) places md →
      Counted Varint places a → Values md b → Meta keys md (a ++ b)

/-! ## Codes of repeated halving -/

/-- The bits of a byte, the low one first. -/
def byteBits (c : UInt8) : List Bool := (List.range 8).map fun i => c.toNat.testBit i

/-- Halving: from the middle, half a step up or down for each bit; each step is half the one before. -/
def descend : List Bool → (mid step : F64) → F64
  | [], mid, _ => mid
  | up :: bits, mid, step =>
    descend bits (if up then mid.add step else mid.sub step) (step.div 0x4000000000000000)

/-- The point of an interval: a set bit goes up. -/
def point (lo width : F64) (code : Bytes) : F64 :=
  descend (code.flatMap byteBits) (lo.add (width.div 0x4000000000000000)) (width.div 0x4010000000000000)

/-- The halvings of one axis in the code of a cell: bytes come in threes, one for each axis; a set bit goes down. -/
def axisBits (axis : Nat) (code : Bytes) : List Bool :=
  (List.range (code.length / 3)).flatMap fun j => (byteBits (code.getD (3 * j + axis) 0)).map not

/-- The point on one axis between two bounds. -/
def axisPoint (axis : Nat) (lo hi : F64) (code : Bytes) : F64 :=
  descend (axisBits axis code) ((lo.add hi).div 0x4000000000000000) ((hi.sub lo).div 0x4010000000000000)

/-- One step in space: the first byte of three is z, the second x, the third y. -/
def move (lo hi from_ : V3) (code : Bytes) : V3 :=
  ⟨from_.x.add (axisPoint 1 lo.x hi.x code), from_.y.add (axisPoint 2 lo.y hi.y code),
   from_.z.add (axisPoint 0 lo.z hi.z code)⟩

/-! ## Times -/

/-- The times of a stream. -/
inductive Times : List F64 → Bytes → Prop where
  | raw64 {ts : List F64} {n b : Bytes} : Varint ts.length n → Many Double ts b → Times ts (0 :: (n ++ b))
  | raw32 {fs : List F32} {n b : Bytes} : Varint fs.length n → Many Single fs b → Times (fs.map widen) (1 :: (n ++ b))
  | none {n : Bytes} : Varint 0 n → Times [] (2 :: n)
  | one {f : F32} {n b : Bytes} : Varint 1 n → Single f b → Times [widen f] (2 :: (n ++ b))
  /-- start, largest difference, two bytes for each difference -/
  | bst {start gap : F32} {codes : List Bytes} {n s g : Bytes} : codes ≠ [] → (∀ c ∈ codes, c.length = 2) →
      Varint (codes.length + 1) n → Single start s → Single gap g →
      Times (codes.scanl (fun t c => t.add (point 0 (widen gap) c)) (widen start)) (2 :: (n ++ (s ++ (g ++ codes.flatten))))

/-! ## Captures -/

/-- Three doubles. -/
inductive Vec64 : V3 → Bytes → Prop where
  | mk {x y z : F64} {a b c : Bytes} : Double x a → Double y b → Double z c → Vec64 ⟨x, y, z⟩ (a ++ (b ++ c))

/-- Three doubles, each followed by two bytes without meaning. -/
inductive Vec80 : V3 → Bytes → Prop where
  | mk {x y z : F64} {a b c a' b' c' : Bytes} : Double x a → Double y b → Double z c → a'.length = 2 → b'.length = 2 →
      c'.length = 2 → Vec80 ⟨x, y, z⟩ (a ++ (a' ++ (b ++ (b' ++ (c ++ c')))))

/-- Three singles. -/
inductive Vec32 : V3 → Bytes → Prop where
  | mk {x y z : F32} {a b c : Bytes} : Single x a → Single y b → Single z c →
      Vec32 ⟨widen x, widen y, widen z⟩ (a ++ (b ++ c))

/-- Three angles of two bytes each. -/
inductive Vec16 : V3 → Bytes → Prop where
  | mk {a b c : Bytes} : a.length = 2 → b.length = 2 → c.length = 2 →
      Vec16 ⟨point 0 0x4076800000000000 a, point 0 0x4076800000000000 b, point 0 0x4076800000000000 c⟩ (a ++ (b ++ c))

/-- Positions. -/
inductive Positions : List V3 → Bytes → Prop where
  | raw64 {vs : List V3} {b : Bytes} : Many Vec64 vs b → Positions vs (0 :: b)
  | raw32 {vs : List V3} {b : Bytes} : Many Vec32 vs b → Positions vs (1 :: b)
  | octNone {tech : UInt8} : tech = 2 ∨ tech = 3 → Positions [] [tech]
  | octOne {tech : UInt8} {v : V3} {b : Bytes} : tech = 2 ∨ tech = 3 → Vec32 v b → Positions [v] (tech :: b)
  /-- least and greatest difference, first position, six (48) or three (24) bytes for each difference -/
  | oct {tech : UInt8} {size : Nat} {lo hi start : V3} {codes : List Bytes} {a b c : Bytes} :
      tech = 2 ∧ size = 6 ∨ tech = 3 ∧ size = 3 → codes ≠ [] → (∀ x ∈ codes, x.length = size) →
      Vec32 lo a → Vec32 hi b → Vec32 start c →
      Positions (codes.scanl (move lo hi) start) (tech :: (a ++ (b ++ (c ++ codes.flatten))))

/-- Rotations. -/
inductive Rotations : List V3 → Bytes → Prop where
  | raw64 {vs : List V3} {b : Bytes} : Many Vec80 vs b → Rotations vs (0 :: b)
  | raw32 {vs : List V3} {b : Bytes} : Many Vec32 vs b → Rotations vs (1 :: b)
  | one {v : V3} {b : Bytes} : Vec32 v b → Rotations [v] (2 :: b)
  | raw16 {vs : List V3} {b : Bytes} : vs.length ≠ 1 → Many Vec16 vs b → Rotations vs (2 :: b)

/-- Floats. -/
inductive Floats : List F64 → Bytes → Prop where
  | raw64 {vs : List F64} {b : Bytes} : Many Double vs b → Floats vs (0 :: b)
  | raw32 {fs : List F32} {b : Bytes} : Many Single fs b → Floats (fs.map widen) (1 :: b)
  /-- least and greatest value, two bytes for each value -/
  | bst {lo hi : F32} {codes : List Bytes} {a b : Bytes} : Single lo a → Single hi b → (∀ c ∈ codes, c.length = 2) →
      Floats (codes.map (point (widen lo) (widen (hi.sub lo)))) (2 :: (a ++ (b ++ codes.flatten)))

/-- A string given by its place in a table. -/
inductive Ref (table : List Bytes) (s : Bytes) : Bytes → Prop where
  | mk {i : Nat} {b : Bytes} : table[i]? = some s → Varint i b → Ref table s b

/-- An event: its name and its metadata. -/
inductive Event (names keys : List Bytes) (e : Bytes × Block) : Bytes → Prop where
  | mk {a b : Bytes} : Ref names e.1 a → Meta keys e.2 b → Event names keys e (a ++ b)

def positionSig : Bytes := "recolude.position".toUTF8.toList
def eulerSig : Bytes := "recolude.euler".toUTF8.toList
def eventSig : Bytes := "recolude.event".toUTF8.toList
def enumSig : Bytes := "recolude.enum".toUTF8.toList
def floatSig : Bytes := "recolude.float".toUTF8.toList

/-- The signatures of the package's encoders. -/
def signatures : List Bytes := [positionSig, eulerSig, eventSig, enumSig, floatSig]

/-- The captures of a collection `c` with the times `ts`: signature of the encoder, its header, the block. -/
inductive Captures (name : Bytes) (ts : List F64) : (sig header : Bytes) → Coll → Bytes → Prop where
  | position {vs : List V3} {b : Bytes} : ts.length = vs.length → Positions vs b →
      Captures name ts positionSig [] (.position name (ts.zip vs)) b
  | euler {vs : List V3} {b : Bytes} : ts.length = vs.length → Rotations vs b →
      Captures name ts eulerSig [] (.euler name (ts.zip vs)) b
  | float {vs : List F64} {b : Bytes} : ts.length = vs.length → Floats vs b →
      Captures name ts floatSig [] (.float name (ts.zip vs)) b
  /-- the header lists event names and metadata keys -/
  | event {names keys : List Bytes} {es : List (Bytes × Block)} {h h' b : Bytes} : ts.length = es.length →
      Counted Text names h → Counted Text keys h' → Many (Event names keys) es b →
      Captures name ts eventSig (h ++ h') (.event name (ts.zip es)) b
  /-- the header lists enum members; the block has those of this collection, then the values -/
  | enum {table ms : List Bytes} {vs : List (BitVec 64)} {h a b : Bytes} : ts.length = vs.length →
      Counted Text table h → Counted (Ref table) ms a → Many (fun v b => Varint v.toNat b) vs b →
      Captures name ts enumSig h (.enum name ms (ts.zip vs)) (a ++ b)

/-! ## Recordings -/

/-- A stream: encoder, name, times, captures. -/
inductive Stream (encs : List (Bytes × Bytes)) (c : Coll) : Bytes → Prop where
  | mk {i : Nat} {sig header block : Bytes} {ts : List F64} {a n t b : Bytes} : encs[i]? = some (sig, header) →
      Varint i a → Text c.name n → Times ts t → Text block b → Captures c.name ts sig header c block →
      Stream encs c (a ++ (n ++ (t ++ b)))

/-- A reference: name, address, size, metadata. -/
inductive Reference (keys : List Bytes) (r : BinRef) : Bytes → Prop where
  | mk {n u s m : Bytes} : r.size < 2 ^ 64 → Text r.name n → Text r.uri u → Varint r.size s → Meta keys r.md m →
      Reference keys r (n ++ (u ++ (s ++ m)))

/-- A binary: name, size, metadata, content. -/
inductive Binary (keys : List Bytes) (x : Bin) : Bytes → Prop where
  | mk {n s m : Bytes} : x.size = x.data.length → Text x.name n → Varint x.size s → Meta keys x.md m →
      Binary keys x (n ++ (s ++ (m ++ x.data)))

mutual
/-- A recording: id, name, metadata, streams, references, binaries, children. -/
inductive Recording (keys : List Bytes) (encs : List (Bytes × Bytes)) : Rec → Bytes → Prop where
  | mk {id name : Bytes} {colls : List Coll} {recs : List Rec} {md : Block} {bins : List Bin} {refs : List BinRef}
      {i n m s r b k c : Bytes} : Text id i → Text name n → Meta keys md m → Counted (Stream encs) colls s →
      Counted (Reference keys) refs r → Counted (Binary keys) bins b → Varint recs.length k → Children keys encs recs c →
      Recording keys encs (.mk id name (colls.map some) recs md (bins.map some) (refs.map some))
        (i ++ (n ++ (m ++ (s ++ (r ++ (b ++ (k ++ c)))))))
/-- Recordings one after another. -/
inductive Children (keys : List Bytes) (encs : List (Bytes × Bytes)) : List Rec → Bytes → Prop where
  | nil : Children keys encs [] []
  | cons {rec : Rec} {recs : List Rec} {b bs : Bytes} : Recording keys encs rec b → Children keys encs recs bs →
      Children keys encs (rec :: recs) (b ++ bs)
end

/-! ## Files -/

/-- What may be compressed: the header of each encoder, the table of metadata keys, the recording. -/
inductive Body (sigs : List Bytes) (rec : Rec) : Bytes → Prop where
  | mk {headers keys : List Bytes} {h k r : Bytes} : headers.length = sigs.length → Many Text headers h →
      Counted Text keys k → Recording keys (sigs.zip headers) rec r → Body sigs rec (h ++ (k ++ r))

/-- What comes first: format version, signatures of the encoders used, their versions. -/
inductive Head (sigs : List Bytes) : Bytes → Prop where
  | mk {s v : Bytes} : (∀ x ∈ sigs, x ∈ signatures) → Counted Text sigs s → Many Varint (sigs.map fun _ => 0) v →
      Head sigs (2 :: (s ++ v))

/-- A file and the number of bytes it has without compression. -/
inductive File (F : Flate) (rec : Rec) : Nat → Bytes → Prop where
  | plain {sigs : List Bytes} {h b : Bytes} : Head sigs h → Body sigs rec b →
      File F rec (h ++ (0 :: b)).length (h ++ (0 :: b))
  | packed {sigs : List Bytes} {h b z : Bytes} : Head sigs h → Body sigs rec b → F.inflate z .eof = (b, .eof) →
      File F rec (h ++ (1 :: b)).length (h ++ (1 :: z))

end Layout
end Rap

import Verif.Pack.Model
/-
What a value *is*, independently of how it is represented: algebraic data with opaque leaves.
-/
namespace Verif.Pack

/-- Fble data values: structs, unions, and opaque things (functions, native values). -/
inductive Data where
  | struct (fields : List Data)
  | union (tag : Nat) (arg : Data)
  | opaque (id : Nat)

/-- The data value without opaque leaves, i.e. those that could be packed at all. -/
inductive PData where
  | struct (fields : List PData)
  | union (tag : Nat) (arg : PData)

mutual
/-- The documented bit code of a value, least significant bit first
(value.c:771-831 and comments at 1258-1264, 1336-1341): struct `0`, one `1` per field, `0`,
then the fields; union `1`, `tag` times `1`, `0`, then the argument. -/
def PData.enc : PData → List Bool
  | .struct fs => false :: (List.replicate fs.length true ++ false :: PData.encs fs)
  | .union tag a => true :: (List.replicate tag true ++ false :: a.enc)
def PData.encs : List PData → List Bool
  | [] => []
  | d :: ds => d.enc ++ PData.encs ds
end

mutual
def PData.toData : PData → Data
  | .struct fs => .struct (PData.toDatas fs)
  | .union tag a => .union tag a.toData
def PData.toDatas : List PData → List Data
  | [] => []
  | d :: ds => d.toData :: PData.toDatas ds
end

/-- Bit `i` of the two's complement integer `x`, sign extended without limit. -/
def sbit (x : Word) (i : Nat) : Bool := if i < 64 then x.getLsbD i else x.msb

/-- The sign extended bits of `x` start with `bs`. -/
def Has (x : Word) (bs : List Bool) : Prop := ∀ i (h : i < bs.length), sbit x i = bs[i]

/-- The word `w` is a legal packed representation of `d`: pack marker set, followed by the code
of `d` (of at most 64 bits). Bits above the code are irrelevant: accessors leave the bits of
neighbouring fields there. -/
structure Packs (w : Word) (d : PData) : Prop where
  marker : isPacked w = true
  bits : Has (w.sshiftRight 1) d.enc
  small : d.enc.length ≤ 64

/-- `Denotes h w d`: in heap `h`, the value `w` is the data `d`. -/
inductive Denotes (h : Heap) : Word → Data → Prop where
  | packed {w d} : Packs w d → Denotes h w d.toData
  | struct {w ws ds} : isPacked w = false → h w = some (.struct ws) →
      ws.length = ds.length → (∀ i (h₁ : i < ws.length) (h₂ : i < ds.length), Denotes h ws[i] ds[i]) →
      Denotes h w (.struct ds)
  | union {w tag a d} : isPacked w = false → h w = some (.union tag a) → Denotes h a d →
      Denotes h w (.union tag d)
  | opaque {w id} : isPacked w = false → h w = some (.opaque id) → Denotes h w (.opaque id)
  | ref {w v d} : isPacked w = false → h w = some (.ref (some v)) → Denotes h v d → Denotes h w d

/-- `w` and `v` are interchangeable: the same word, or packed representations of the same data. -/
def Same (w v : Word) : Prop := w = v ∨ ∃ d, Packs w d ∧ Packs v d

/-- A word that may be passed to the constructors: not packed, or a legal packed word. -/
def Legal (w : Word) : Prop := isPacked w = true → ∃ d, Packs w d

end Verif.Pack

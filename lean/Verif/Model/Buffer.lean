import Verif.Model.PathBuild

/-!
# Shared-memory buffers (`tnco/parallel.py:31-101`)

A buffer is a block of bytes of shared memory together with a one-character
`struct` format.  The block is modelled byte by byte, so that the independence
of the slots of two workers is a theorem about offsets and not part of the
model.

Not modelled: the name of the shared-memory segment, `repr`, and the content
left behind by a *failed* write.
-/

namespace TNCO

/-- `struct.calcsize` of a one-character format with native sizes (Linux,
64 bit).  Byte-order characters and white space are formats of size zero. -/
def calcsize (c : Char) : Option Nat :=
  if c ∈ ['x', 'c', 'b', 'B', '?', 's', 'p'] then some 1
  else if c ∈ ['h', 'H', 'e'] then some 2
  else if c ∈ ['i', 'I', 'f'] then some 4
  else if c ∈ ['l', 'L', 'q', 'Q', 'n', 'N', 'd', 'P'] then some 8
  else if c ∈ ['@', '=', '<', '>', '!', ' ', '\t', '\n', '\r', '\x0b', '\x0c']
    then some 0
  else none

/-- `struct.pack` and `struct.unpack` of one value: encoding may fail
(`struct.error`), decoding does not. -/
structure Codec (V : Type) where
  enc : Char → V → Except PyErr (List UInt8)
  dec : Char → List UInt8 → V

/-- `Buffer` (`tnco/parallel.py:31-101`): the format and the bytes of
`shm.buf`. -/
structure Buffer where
  dtype : Char
  bytes : List UInt8
deriving DecidableEq

/-- The size in bytes of a slot: `calcsize(self.dtype)`. -/
def Buffer.slot (b : Buffer) : Nat := (calcsize b.dtype).getD 0

/-- `Buffer.__len__` (`tnco/parallel.py:82-83`). -/
def Buffer.len (b : Buffer) : Nat := b.bytes.length / b.slot

/-- Overwrites `ys.length` bytes from `off`. -/
def writeAt (bs : List UInt8) (off : Nat) (ys : List UInt8) : List UInt8 :=
  bs.take off ++ ys ++ bs.drop (off + ys.length)

/-- The bytes of a sequence of values: `pack_into(dtype * size, …)`
(`tnco/parallel.py:79-80`).  The pad byte `x` takes no value. -/
def packAll {V : Type} (cd : Codec V) (c : Char) :
    List V → Except PyErr (List UInt8)
  | [] => .ok []
  | v :: vs =>
    if c = 'x' then .error .structError
    else
      match cd.enc c v with
      | .error e => .error e
      | .ok ys =>
        match packAll cd c vs with
        | .error e => .error e
        | .ok zs => .ok (ys ++ zs)

/-- `SharedMemory(create=True, size=size)`: the size must be positive; the
operating system may round it up (`alloc`), and the block starts zeroed. -/
def sharedMemory (alloc : Nat → Nat) (size : Int) :
    Except PyErr (List UInt8) :=
  if size ≤ 0 then .error .valueError
  else .ok (List.replicate (alloc size.toNat) 0)

/-- `Buffer.__init__` (`tnco/parallel.py:51-80`) on a sequence (`inl`) or a
size (`inr`).  `alloc` is the size of the block the operating system gives
for a requested size. -/
def mkBuffer {V : Type} (cd : Codec V) (alloc : Nat → Nat)
    (x : List V ⊕ Int) (dtype : List Char) : Except PyErr Buffer :=
  match dtype with
  | [c] =>
    match calcsize c with
    | none => .error .valueError
    | some w =>
      match x with
      | .inr n =>
        match sharedMemory alloc (n * w) with
        | .error e => .error e
        | .ok bs => .ok ⟨c, bs⟩
      | .inl vs =>
        match sharedMemory alloc (vs.length * w) with
        | .error e => .error e
        | .ok bs =>
          match packAll cd c vs with
          | .error e => .error e
          | .ok ys => .ok ⟨c, writeAt bs 0 ys⟩
  | _ => .error .valueError

/-- The offset at which `unpack_from` and `pack_into` work for position
`pos`: positions past the end are refused by `Buffer` itself
(`tnco/parallel.py:89-90`, `95-96`), a negative offset counts from the end of
the block, and one before its beginning is a `struct.error`. -/
def Buffer.offset (b : Buffer) (pos : Int) : Except PyErr Nat :=
  if (b.len : Int) ≤ pos then .error .indexError
  else if 0 ≤ pos * b.slot then .ok (pos * b.slot).toNat
  else if pos * b.slot + b.bytes.length < 0 then .error .structError
  else .ok (pos * b.slot + b.bytes.length).toNat

/-- `Buffer.__getitem__` (`tnco/parallel.py:88-92`).  The pad byte unpacks to
the empty tuple. -/
def Buffer.get {V : Type} (cd : Codec V) (b : Buffer) (pos : Int) :
    Except PyErr V :=
  match b.offset pos with
  | .error e => .error e
  | .ok off =>
    if b.dtype = 'x' then .error .indexError
    else .ok (cd.dec b.dtype ((b.bytes.drop off).take b.slot))

/-- `Buffer.__setitem__` (`tnco/parallel.py:94-97`). -/
def Buffer.set {V : Type} (cd : Codec V) (b : Buffer) (pos : Int) (v : V) :
    Except PyErr Buffer :=
  match b.offset pos with
  | .error e => .error e
  | .ok off =>
    if b.dtype = 'x' then .error .structError
    else
      match cd.enc b.dtype v with
      | .error e => .error e
      | .ok ys => .ok { b with bytes := writeAt b.bytes off ys }

/-- `list(b)`: the iteration protocol calls `__getitem__` from 0 until
`IndexError` (used in `tnco/parallel.py:86, 280, 290`). -/
def Buffer.toList {V : Type} (cd : Codec V) (b : Buffer) :
    Except PyErr (List V) :=
  (List.range b.len).mapM fun (i : Nat) => b.get cd i

end TNCO

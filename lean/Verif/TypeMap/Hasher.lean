/-
The hasher that picks a shard from a `TypeId` (container.rs:85-115 and typearena.rs:28-58, which are the same code).
-/
namespace TypeMap

/-- The calls `TypeId`'s `Hash` implementation may make on the hasher. All other integer methods of `core::hash::Hasher`
default to `write` of the bytes. -/
inductive Write where
  | bytes (l : List UInt8)
  | u64 (v : UInt64)

/-- `write` (container.rs:95-103): `hash = hash.wrapping_mul(31).wrapping_add(byte)` for each byte; `write_u64`
(105-107): `hash = v`. Arithmetic on `UInt64` wraps. -/
def Write.apply (h : UInt64) : Write → UInt64
  | .bytes l => l.foldl (fun h b => h * 31 + b.toUInt64) h
  | .u64 v => v

/-- `hash_of_type` (container.rs:85-115): start at 0, feed the writes, finish. -/
def hashWrites (l : List Write) : UInt64 := l.foldl Write.apply 0

/-- `INTERN_CONTAINER_COUNT` (container.rs:65), `CONTAINER_COUNT` (typearena.rs:18). -/
def containerCount : Nat := 32

/-- `hash_of_type::<T>() as usize % INTERN_CONTAINER_COUNT` (container.rs:118) on a target whose `usize` has `w` bits: the
cast keeps the low `w` bits. -/
def shardIndex (w : Nat) (h : UInt64) : Nat := (h.toNat % 2 ^ w) % containerCount

end TypeMap

import Verif.Model.Impls
/-
Which address identifies a shared allocation: the third argument of `enter_shared` (impls/std/sync.rs, impls/triomphe.rs, impls/futures.rs), in a model of memory
where allocations are ranges of addresses.
-/
namespace Allocative

/-- A heap allocation that is visited by `enter_shared`.
Models impls/std/sync.rs:76, 115, impls/triomphe.rs:59, 93, impls/futures.rs:33. -/
inductive SharedAlloc where
  /-- `ArcInner<T>` or `RcInner<T>` of std at address `base`; `val` is the layout of the value of type `T` -/
  | std (base : Ptr) (val : Layout)
  /-- triomphe's `ArcInner<T>`, also the one behind a `ThinArc`; `size` is its size -/
  | triomphe (base : Ptr) (size : Nat)
  /-- `ArcInner<Inner<F>>` behind a `futures::future::Shared<F>` that has its result: the result is at `offset` and has `len` bytes -/
  | future (base : Ptr) (size offset len : Nat)

/-- The address passed to `enter_shared`:
`Arc::as_ptr(self) as *const ()` (sync.rs:76), `Rc::as_ptr(self) as *const ()` (sync.rs:115) -- the address of the value, which std computes as
the offset in `ArcInner`/`RcInner` (`None`: no such layout);
`Arc::heap_ptr(self) as *const ()` (triomphe.rs:93) and `ThinArc::ptr(self) as *const ()` (triomphe.rs:59) -- the address of the allocation;
`result as *const _ as *const ()` (futures.rs:34) -- the address of the result. -/
def SharedAlloc.key [Target] : SharedAlloc → Option Ptr
  | .std base val => (Impl.rcBoxHeader.extend val).map fun r => base + r.2
  | .triomphe base _ => some base
  | .future base _ offset _ => some (base + offset)

end Allocative

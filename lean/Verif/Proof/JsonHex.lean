import Verif.Spec.JsonHex

/-! # Lemmas on unicode escapes -/

namespace Json
open Cpp Spec

theorem isHex_iff (c : Byte) : isHex c = true ↔ c ∈ hexDigits := by
  have h : ∀ n < 256, isHex (UInt8.ofNat n) = true ↔ UInt8.ofNat n ∈ hexDigits := by decide +kernel
  have := h c.toNat c.toNat_lt
  rwa [UInt8.ofNat_toNat] at this

end Json

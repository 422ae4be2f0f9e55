/-!
# Shared vocabulary

`Bytes` models a C memory range `[start, end)` of `char`/`uint8_t`.
-/
namespace Verif

/-- A C byte range; each element is the `uint8_t` view of one `char`. -/
abbrev Bytes := List UInt8

end Verif

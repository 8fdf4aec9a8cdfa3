import Verif.Model.Base

/-! Specification vocabulary for WAV files; does not mention the model of wav.hh. -/

namespace DSP.Spec

/-- The bit depth a file gets: 8 and 16 as requested, anything else becomes 32 bit floating point. -/
def depth (bits : Int) : Int := if bits = 8 then 8 else if bits = 16 then 16 else 32

/-- Bytes per sample. -/
def width (bits : Int) : Int := if bits = 8 then 1 else if bits = 16 then 2 else 4

/-- Header size: 44 bytes for PCM, 58 for floating point. -/
def headerSize (bits : Int) : Nat := if bits = 8 then 44 else if bits = 16 then 44 else 58

/-- The header fields fit: `rate` and the byte rate in 32 bit, the block alignment in 15 bit, at least one channel. -/
structure HeaderFits (rate bits channels : Int) : Prop where
  rate_lo : -2147483648 ≤ rate
  rate_hi : rate ≤ 2147483647
  channels_pos : 1 ≤ channels
  align : channels * width bits ≤ 32767
  byte_rate_lo : -2147483648 ≤ rate * channels * width bits
  byte_rate_hi : rate * channels * width bits ≤ 2147483647

end DSP.Spec

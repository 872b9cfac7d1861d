import Verif.Model.DirectTuple
/-! Field widths of a persisted tuple. -/
namespace Blobd
namespace Direct

/-- the tuple's fields fit their fixed widths: 128-bit id, 48-bit offset, 8-bit size exponent -/
structure TupleFits (t : Tuple) : Prop where
  id : t.id < 2 ^ 128
  off : t.metaOff < 2 ^ 48
  pow : t.metaPow2 < 256

end Direct
end Blobd

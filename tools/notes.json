{
 "C01": {
  "note": "SystemTime values before the epoch are excluded (C11 says what happens to them). Values whose set/map elements carry skipped fields are covered whenever the reset value is well typed."
 },
 "C05": {
  "note": "C05_bin_panics_only and C05_bin_panics_at together characterise the panics: only where PanicsAt holds for a type occurring in t, and there the reader does panic."
 },
 "C81": {
  "note": "The corresponding value must be a possible value of the new program (collections can be allocated, keys distinct and in order): hypothesis HasTy of C81_bin_evolution."
 }
}
{
 "C03": {
  "note": "Overlapping cycles are accepted by the code, so the unrestricted claim 'the result is always a permutation' is false; C03_overlapping_cycles is the witness, C03_any_cycles and C03_bijective_iff say exactly what happens for all lists."
 },
 "C50": {
  "note": "intval_to_arity is modelled with an exact logarithm."
 },
 "C71": {
  "note": "sympy fwht/ifwht are modelled by their known algorithm."
 }
}
{
"C03": {"note": "The three f64 constants are taken as the literal u64 values (f64 rounding trusted)."},
"C12": {"note": "The intended property is false of the code: C12_index_silently_dropped is the counterexample; the other theorems give the exact and a sufficient condition."}
}

# Formal model of visionworkbench in Lean 4

## 1. What this is

`/verif/lean/Verif` holds a Lean 4 model of parts of visionworkbench (`/repo`, read as text, never run) and
machine-checked theorems about that model. `properties.jsonl` lists the semantic properties in English,
`MANIFEST.json` maps each to theorems, `seeded/LOG.jsonl` records the wrong programs the theorems were tried
against, `AXIOMS.md` the axioms each claimed theorem depends on.

Layout, per subsystem: `Model.lean` or `<Name>.lean` has the definitions, transcribed from the C++ function by
function, each citing file and lines; `Props.lean` or `<Name>Props.lean` has the specification (small definitions
stated without the model's helpers), the lemmas, the property theorems, and concrete cases meeting their hypotheses.

## 2. Trusted base

* Lean 4.33.0's kernel, and the axioms `propext`, `Classical.choice`, `Quot.sound` only (`AXIOMS.md` lists them per
  theorem; no axioms of our own and no proof by compiled code).
* Mathlib definitions used in statements (ordered fields, `Finset` sums, matrices and determinant, floor).
* Faithfulness of the transcription from C++ to Lean. Nothing was executed; each definition cites its lines.
* Modelling conventions:
  * `int`, `int32`, `size_t` are `Int`/`Nat` without overflow unless the property is about overflow;
    then `BitVec`/explicit modular arithmetic is used and the definition says so.
  * C++ `/` and `%` on signed integers are `Int.tdiv`, `Int.tmod` (truncation towards zero).
  * `float`/`double` are exact numbers (`Rat` or any linearly ordered field), except in C62, where rounding to
    single and double precision is modelled. No other theorem says anything about rounding, NaN or infinities.
  * exceptions (`vw_throw`, failing `VW_ASSERT`) and undefined behaviour are explicit outcomes
    (`Except`/`Option`/an error constructor), or the theorem has a guard that excludes them.
  * concurrency: threads are interleaved at the granularity of critical sections/lock operations (sequential
    consistency). Fairness is stated where a liveness theorem needs it. Memory ordering is not modelled.

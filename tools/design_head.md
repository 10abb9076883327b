# Design of the formal model of quickly

Source: `/repo` (frescobaldi/quickly, Python). The model is Lean 4 under `/verif/lean/Verif`, one directory per topic:
`Model.lean` (the code, function by function, each definition citing file and lines), `Spec.lean` (the small
specification in plain terms, where one is needed), `Lemmas*.lean` (helpers), `Props*.lean` (the property theorems, with
examples that show that their hypotheses are met). The theorem names start with the id of the property.
`properties.jsonl`, `MANIFEST.json` and this file are written by the scripts in `tools/`.

## Conventions

* Python exceptions are values (`Except PyErr`), generators are lists, or step machines where `send` or a change while
  iterating matters. Iterators that are shared by several consumers are passed on as lists.
* Integers are `Int`/`Nat`; alterations, scales and durations are exact rationals. Floats the code uses are exact in
  binary (0.5 steps); where rounding matters (`math.frexp` of durations) the domain of doubles is modelled.
* Strings are lists of characters, or lists of tokens. Mutable trees are heaps (`Heap/`), values otherwise.
* Loops that need a bound for termination in Lean get a number of steps; it is proved to be enough, or the theorem
  is about every run that ends.
* Where the code does not do what the property says, a theorem with a concrete witness proves the difference, and the
  property is proved, with the suffix `_partial`, for the inputs where it holds.
* Wrong programs: `seeded/LOG.jsonl` has every edit of the model that was tried, and the theorems that failed.

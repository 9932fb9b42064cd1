import Verif.Model.Py
/-!
# `metadata.json` and what users add to it
(decent_bench/utils/checkpoint_manager.py, decent_bench/benchmark/_benchmark.py `resume_benchmark`)

Model/BenchDir keeps the two counters of `resume_benchmark` apart from the user's entries; in the file they are entries of the same
dictionary `benchmark_metadata`, which is what this model is about.

* `J` values in the dictionary. `Codec.enc v` is what `json.load` gives for what `json.dump` wrote of `v`, `none` when `json.dump` raises
  (for instance numpy numbers, arrays, paths). Keys are strings.
* The file is absent, unreadable, or has a content. When `json.dump` raises, the file was truncated and has an unclosed `{`: unreadable.
* The checkpoint directory exists and its other files are readable; C108 is about kills and those files.
-/
namespace Verif.Meta
open Verif

/-- JSON as seen by the two functions: encoding, Python integers, and the integer that `0 + v` is -/
structure Codec (J : Type) where
  enc : J → Option J
  num : Int → J
  asInt : J → Option Int
  enc_enc : ∀ v u, enc v = some u → enc u = some u
  enc_num : ∀ i, enc (num i) = some (num i)
  asInt_num : ∀ i, asInt (num i) = some i

variable {J : Type}

/-- the dictionary in `metadata.json` (checkpoint_manager.py 199-214) -/
structure Content (J : Type) where
  nTrials : Option Int
  algs : Option J
  seed : Option Int
  bench : Option (PyDict String J)

/-- the file: absent, unreadable, readable -/
abbrev File (J : Type) := Option (Option (Content J))

/-- `load_metadata` (checkpoint_manager.py 600-617); the empty dictionary when there is no file -/
def load : File J → Py (Content J)
  | none => .ok ⟨none, none, none, none⟩
  | some none => .error .jsonDecodeError
  | some (some m) => .ok m

/-- `json.dump` of the entries of a dictionary followed by `json.load` -/
def encEntries (C : Codec J) : List (String × J) → Option (List (String × J))
  | [] => some []
  | (k, v) :: t => match C.enc v, encEntries C t with
    | some u, some t' => some ((k, u) :: t')
    | _, _ => none

/-- `_save_metadata` (checkpoint_manager.py 785-790): the file afterwards, and the exception if there is one -/
def save (C : Codec J) (m : Content J) : File J × Py Unit :=
  match m.bench with
  | none => (some (some m), .ok ())
  | some b => match encEntries C b.entries with
    | some l => (some (some { m with bench := some ⟨l⟩ }), .ok ())
    | none => (some none, .error .typeError)

/-- `dict.update` -/
def update (d : PyDict String J) (e : List (String × J)) : PyDict String J := e.foldl (fun d kv => d.set kv.1 kv.2) d

/-- `append_metadata` (checkpoint_manager.py 245-264) -/
def append (C : Codec J) (e : List (String × J)) (f : File J) : File J × Py (Content J) :=
  match load f with
  | .error x => (f, .error x)
  | .ok m =>
    let m' : Content J := { m with bench := some (update (m.bench.getD PyDict.empty) e) }
    match save C m' with
    | (f', .ok ()) => (f', .ok m')
    | (f', .error x) => (f', .error x)

/-- the metadata part of `initialize` (checkpoint_manager.py 199-217); `notes` is the manager's `benchmark_metadata` -/
def start (C : Codec J) (n : Int) (algs : J) (seed : Option Int) (notes : Option (List (String × J))) : File J × Py Unit :=
  save C ⟨some n, some algs, seed, notes.map fun l => ⟨l⟩⟩

/-- `increase + metadata.get("benchmark_metadata", {}).get(key, 0)` (_benchmark.py 161, 170-172) -/
def total (C : Codec J) (m : Content J) (key : String) (inc : Nat) : Py Int :=
  match (m.bench.getD PyDict.empty).get? key with
  | none => .ok inc
  | some v => match C.asInt v with
    | some i => .ok (inc + i)
    | none => .error .typeError

/-- what a resumed benchmark runs: trials, iterations added to every algorithm, base seed -/
structure Plan where
  nTrials : Int
  added : Int
  seed : Option Int
deriving DecidableEq

/-- the part of `resume_benchmark` about iterations (_benchmark.py 170-190), with `m` the metadata so far -/
def resumeIterations (C : Codec J) (incI : Nat) (n : Int) (m : Content J) (f : File J) : File J × Py Plan :=
  match total C m "increased_iterations" incI with
  | .error x => (f, .error x)
  | .ok t =>
    if incI ≠ 0 then
      match append C [("increased_iterations", C.num t)] f with
      | (f', .ok m') => (f', .ok ⟨n, t, m'.seed⟩)
      | (f', .error x) => (f', .error x)
    else (f, .ok ⟨n, 0, m.seed⟩)

/-- `resume_benchmark` up to `_benchmark` (_benchmark.py 127-192), as far as the metadata goes -/
def resume (C : Codec J) (incI incT : Nat) (f : File J) : File J × Py Plan :=
  match load f with
  | .error _ => (f, .error .valueError)
  | .ok m =>
    match m.nTrials with
    | none => (f, .error .valueError)
    | some n =>
      match total C m "increased_trials" incT with
      | .error x => (f, .error x)
      | .ok t =>
        if incT ≠ 0 then
          match append C [("increased_trials", C.num t)] f with
          | (f', .ok m') => resumeIterations C incI (n + t) m' f'
          | (f', .error x) => (f', .error x)
        else resumeIterations C incI (n + t) m f

/-- a call of the API -/
inductive Call (J : Type) where
  | append (e : List (String × J))
  | resume (incI incT : Nat)

/-- the file after some calls, some of which may raise -/
def after (C : Codec J) (f : File J) : List (Call J) → File J
  | [] => f
  | .append e :: l => after C (append C e f).1 l
  | .resume i t :: l => after C (resume C i t f).1 l

/-- what the resumes among some calls run, in order -/
def plans (C : Codec J) (f : File J) : List (Call J) → List (Py Plan)
  | [] => []
  | .append e :: l => plans C (append C e f).1 l
  | .resume i t :: l => (resume C i t f).2 :: plans C (resume C i t f).1 l

end Verif.Meta

import Verif.Model.Session
/-!
# script/build.py and script/queries.py

`os.system` runs a command and waits for it; the scripts do not look at its exit status.  The names of files
have no spaces or other characters that mean something to the shell.
-/
namespace Sliced

/-- one command of build.py: `build` is run on the files as they are; if it ends, the file that it writes (if
any) is there -/
def runBuild (build : Disk → List String → Res (Nat × Option (String × List UInt8))) (argv : List String)
    (s : Disk × List (Res Nat)) : Disk × List (Res Nat) :=
  match build s.1 argv with
  | .ok (code, file) => (s.1.put file, s.2 ++ [.ok code])
  | .error e => (s.1, s.2 ++ [.error e])

/-- script/build.py:3-8; returns the files afterwards and how each command has ended -/
def build_py (build : Disk → List String → Res (Nat × Option (String × List UInt8)))
    (input_filename output_filename : String) (d : Disk) : Disk × List (Res Nat) :=
  let s := (d, [])
  let s := runBuild build ["./build", input_filename, "0.01", "-o", output_filename ++ ".0.01.bin"] s
  let s := runBuild build ["./build", input_filename, "0.001", "-o", output_filename ++ ".0.001.bin"] s
  runBuild build ["./build", input_filename, "0.0001", "-o", output_filename ++ ".0.0001.bin"] s

/-- script/queries.py:3-20.  `cmd` is how a command ends, given its words and the file that is its standard
input, if it has one; `xrange(0, runs)` with `runs = 3`. -/
def queries_py {α : Type} (cmd : List String → Option String → α) (index_filename query_logs_path : String) :
    List α :=
  List.replicate 3 (cmd ["./decode", index_filename] none)
  ++ List.replicate 3 (cmd ["./intersect", index_filename, "1000"]
      (some (query_logs_path ++ "/pairwise_queries.1k")))
  ++ List.replicate 3 (cmd ["./union", index_filename, "1000"]
      (some (query_logs_path ++ "/pairwise_queries.1k")))
  ++ List.replicate 3 (cmd ["./select", index_filename, "1000"]
      (some (query_logs_path ++ "/select_queries.1k")))
  ++ List.replicate 3 (cmd ["./next_geq", index_filename, "1000"]
      (some (query_logs_path ++ "/next_geq_queries.1k")))

end Sliced

import Verif.Props.Sequences
import Verif.Props.Equivalence
import Verif.Props.Canonical
import Verif.Props.Rowsum
import Verif.Props.Matching
import Verif.Props.Plan
import Verif.Props.FindWrite
import Verif.Props.Psd
import Verif.Props.Rounding
import Verif.Props.Matrices
import Verif.Props.Mum
import Verif.Props.Graph
import Verif.Props.Convert
import Verif.Props.Search
import Verif.Props.Equations
import Verif.Props.Helpers
import Verif.Props.Split
import Verif.Props.Float32
import Verif.Props.QuadRep
import Verif.Props.Solver
import Verif.Props.Program
import Verif.Props.Driver
import Verif.Props.System
import Verif.Props.Debug
import Verif.Props.Log
import Verif.Props.Precision
import Verif.Props.Letters
import Verif.Props.Checked
import Verif.Props.RepoTests
import Verif.Props.RepoExamples
import Verif.Props.Single
import Verif.Props.Numeral
import Verif.Props.Cut
import Verif.Props.Word
import Verif.Props.Counts
import Verif.Props.Slurm
import Verif.Props.Binary64
import Verif.Props.DoubleFails
import Verif.Props.Opb
import Verif.Props.Linear
import Verif.Props.TwicePrime
import Verif.Props.FastTransform
import Verif.Props.Table
import Verif.Props.Kept
import Verif.Props.Asserted
import Verif.Props.Labels
import Verif.Props.Calls
import Verif.Props.Rerun
import Verif.Props.Recall
import Verif.Props.Interrupt
import Verif.Props.Resort
import Verif.Props.Reproduce
import Verif.Props.Listed

#!/bin/sh
# Regenerates lean/Verif.lean so that every module under lean/Verif is imported.
cd "$(dirname "$0")/../lean" && find Verif -name '*.lean' | sort | sed 's/\.lean$//; s#/#.#g; s/^/import /' > Verif.lean

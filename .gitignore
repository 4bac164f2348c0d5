.lake/
__pycache__/
tools/*.lean
